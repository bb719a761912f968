/-!
# C94: editing lists through the API

Model of `src/haxorg/api/SemBaseApi.cpp:367-402` and `src/haxorg/sem/SemOrgSharedApi.cpp:714-752`, and its properties.
-/

namespace Verif.Api.Lists

/-- `ListItem`, as far as these functions go: the clean text of the header, if there is one, the bullet, and the body. -/
structure Item (β : Type) where
  header : Option String := none
  bullet : Option String := none
  body : List β := []
deriving DecidableEq, Repr

/-- A subnode of a list: an item or another node. -/
inductive Sub (β : Type) where
  | item (i : Item β)
  | other (n : Nat)
deriving DecidableEq, Repr

/-- `Vec::at` out of range; `as<ListItem>` of another node; an iterator before the begin or behind the end of the vector (undefined). -/
inductive Err where
  | range | cast | undefined
deriving DecidableEq, Repr

variable {β : Type}

/-- The loop of `getListHeaderIndex`, from an index on. -/
def headerIndexFrom (text : String) : Int → List (Sub β) → Int
  | _, [] => -1
  | idx, .item i :: rest => if i.header = some text then idx else headerIndexFrom text (idx + 1) rest
  | idx, .other _ :: rest => headerIndexFrom text (idx + 1) rest

/-- `getListHeaderIndex` – SemBaseApi.cpp:367-376 -/
def getListHeaderIndex (l : List (Sub β)) (text : String) : Int := headerIndexFrom text 0 l

/-- `setListItemBody` – SemBaseApi.cpp:378-383 -/
def setListItemBody (l : List (Sub β)) (index : Int) (value : List β) : Except Err (List (Sub β)) :=
  if 0 ≤ index ∧ index < l.length then
    match l[index.toNat]? with
    | some (.item i) => .ok (l.set index.toNat (.item { i with body := value }))
    | _ => .error .cast
  else .error .range

/-- `id->subnodes.insert(begin() + index, item)` – SemBaseApi.cpp:394, 401 -/
def insertAt (l : List (Sub β)) (index : Int) (i : Item β) : Except Err (List (Sub β)) :=
  if 0 ≤ index ∧ index ≤ l.length then .ok (l.take index.toNat ++ .item i :: l.drop index.toNat) else .error .undefined

/-- `insertDescriptionListItem` – SemBaseApi.cpp:386-395; the header is given by its clean text. -/
def insertDescriptionListItem (l : List (Sub β)) (index : Int) (header : String) (value : List β) : Except Err (List (Sub β)) :=
  insertAt l index { header := some header, body := value }

/-- `insertListItemBody` – SemBaseApi.cpp:398-402 -/
def insertListItemBody (l : List (Sub β)) (index : Int) (value : List β) : Except Err (List (Sub β)) := insertAt l index { body := value }

/-- `List_isDescriptionList` – SemOrgSharedApi.cpp:722-731 -/
def isDescriptionList (l : List (Sub β)) : Bool := l.any fun | .item i => i.header.isSome | .other _ => false

/-- `List_isNumberedList` – SemOrgSharedApi.cpp:733-748 -/
def isNumberedList (l : List (Sub β)) : Bool := l.any fun | .item i => i.bullet.isSome | .other _ => false

/-- The bullet of an item on reading: the text of the bullet token without spaces – SemConvert.cpp:1319-1321. -/
def readBullet (written : String) : Option String := some written

/-! ## Properties -/

/-- The subnode is an item with this header. -/
def Sub.Has (text : String) : Sub β → Prop
  | .item i => i.header = some text
  | .other _ => False

theorem headerIndexFrom_spec (text : String) : ∀ (l : List (Sub β)) (k : Int),
    (∃ pre x post, l = pre ++ x :: post ∧ x.Has text ∧ (∀ y ∈ pre, ¬ y.Has text) ∧ headerIndexFrom text k l = k + pre.length) ∨
    ((∀ y ∈ l, ¬ y.Has text) ∧ headerIndexFrom text k l = -1) := by
  intro l
  induction l with
  | nil => intro k; exact .inr ⟨by simp, rfl⟩
  | cons s l ih =>
    intro k
    have step : ¬ s.Has text → headerIndexFrom text k (s :: l) = headerIndexFrom text (k + 1) l →
        (∃ pre x post, s :: l = pre ++ x :: post ∧ x.Has text ∧ (∀ y ∈ pre, ¬ y.Has text) ∧ headerIndexFrom text k (s :: l) = k + pre.length) ∨
        ((∀ y ∈ s :: l, ¬ y.Has text) ∧ headerIndexFrom text k (s :: l) = -1) := by
      intro hs he
      rcases ih (k + 1) with ⟨pre, x, post, rfl, h1, h2, h3⟩ | ⟨h1, h2⟩
      · refine .inl ⟨s :: pre, x, post, rfl, h1, ?_, ?_⟩
        · intro y hy
          rcases List.mem_cons.1 hy with rfl | hy
          · exact hs
          · exact h2 y hy
        · rw [he, h3, List.length_cons]; omega
      · refine .inr ⟨?_, by rw [he, h2]⟩
        intro y hy
        rcases List.mem_cons.1 hy with rfl | hy
        · exact hs
        · exact h1 y hy
    cases s with
    | other n => exact step id rfl
    | item i =>
      by_cases h : i.header = some text
      · exact .inl ⟨[], _, l, rfl, h, by simp, by simp [headerIndexFrom, h]⟩
      · exact step h (by simp [headerIndexFrom, h])

/-- **C94.** The index of a header is the one of the first item with this header, and `-1` exactly if there is none. -/
theorem header_index (l : List (Sub β)) (text : String) :
    (∃ pre x post, l = pre ++ x :: post ∧ x.Has text ∧ (∀ y ∈ pre, ¬ y.Has text) ∧ getListHeaderIndex l text = pre.length) ∨
    ((∀ y ∈ l, ¬ y.Has text) ∧ getListHeaderIndex l text = -1) := by
  rcases headerIndexFrom_spec text l 0 with ⟨pre, x, post, h1, h2, h3, h4⟩ | h
  · exact .inl ⟨pre, x, post, h1, h2, h3, by rw [getListHeaderIndex, h4]; omega⟩
  · exact .inr h

/-- **C94.** Setting the body of an item of the list changes the body of this item only; other indices throw. -/
theorem set_body (pre post : List (Sub β)) (i : Item β) (value : List β) :
    setListItemBody (pre ++ .item i :: post) pre.length value = .ok (pre ++ .item { i with body := value } :: post) ∧
    ∀ (l : List (Sub β)) (k : Int), (k < 0 ∨ l.length ≤ k) → setListItemBody l k value = .error .range := by
  constructor
  · unfold setListItemBody
    rw [if_pos ⟨by omega, by simp; omega⟩]
    simp
  · intro l k hk
    unfold setListItemBody
    rw [if_neg (by omega)]

/-- **C94.** An item inserted within the bounds is at the given place, and the rest is as before. -/
theorem insert_item_partial (pre post : List (Sub β)) (value : List β) (header : String) :
    insertListItemBody (pre ++ post) pre.length value = .ok (pre ++ .item { body := value } :: post) ∧
    insertDescriptionListItem (pre ++ post) pre.length header value = .ok (pre ++ .item { header := some header, body := value } :: post) := by
  constructor <;>
  · simp only [insertListItemBody, insertDescriptionListItem, insertAt]
    rw [if_pos ⟨by omega, by simp; omega⟩]
    simp

/-- In full: inserting returns or throws. -/
def InsertStatement : Prop := ∀ (l : List (Sub Nat)) (k : Int) (value : List Nat), insertListItemBody l k value ≠ .error .undefined

/-- The code: an index outside of the list, such as the one of a header that is not there, is not checked. -/
theorem insert_false : ¬ InsertStatement := by
  intro h
  exact h [.item { header := some "a" }] (getListHeaderIndex ([.item { header := some "a" }] : List (Sub Nat)) "b") [] rfl

/-- **C94.** After inserting an item with a header, the item found under the header is the first one that was there before the place, else the
inserted one. -/
theorem insert_found (pre post : List (Sub β)) (header : String) (value : List β) (h : ∀ y ∈ pre, ¬ y.Has header) :
    ∃ l, insertDescriptionListItem (pre ++ post) pre.length header value = .ok l ∧ getListHeaderIndex l header = pre.length ∧
      isDescriptionList l = true := by
  refine ⟨_, (insert_item_partial pre post value header).2, ?_, ?_⟩
  · rcases header_index (pre ++ .item { header := some header, body := value } :: post) header with
      ⟨pre', x, post', h1, h2, h3, h4⟩ | ⟨h1, _⟩
    · rw [h4]
      have hlen : pre'.length = pre.length := by
        rcases Nat.lt_trichotomy pre'.length pre.length with hlt | heq | hgt
        · exfalso
          have : (pre ++ Sub.item { header := some header, body := value } :: post)[pre'.length]? = some x := by rw [h1]; simp
          rw [List.getElem?_append_left hlt] at this
          exact h x (List.mem_of_getElem? this) h2
        · exact heq
        · exfalso
          have : (pre' ++ x :: post')[pre.length]? = some (.item { header := some header, body := value }) := by rw [← h1]; simp
          rw [List.getElem?_append_left hgt] at this
          exact h3 _ (List.mem_of_getElem? this) rfl
      rw [hlen]
    · exact absurd rfl (h1 (.item { header := some header, body := value }) (by simp))
  · simp [isDescriptionList]

/-- In full: lists with dashes are not numbered. -/
def NumberedStatement : Prop := ∀ bodies : List (List Nat), isNumberedList (bodies.map fun b => Sub.item { bullet := readBullet "-", body := b }) = false

/-- The code: every list that was read is numbered. -/
theorem numbered_false : ¬ NumberedStatement := by
  intro h
  exact absurd (h [[]]) (by decide)

end Verif.Api.Lists
