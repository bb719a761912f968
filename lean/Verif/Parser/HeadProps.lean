import Verif.Parser.Head
import Verif.Parser.Props

/-!
# C56, C57 – headlines are parsed according to their grammar
-/

namespace Verif.Parser
open Verif.Lexer Verif.NodeGroup Verif.NodeGroup.Spec

/-- **C56, C57.** A stream of tokens which is a document of headlines and paragraphs according to
the grammar is parsed into the tree the grammar gives it: every headline has its stars, keyword,
priority, title and tags, in this order, and the paragraphs are between the headlines. -/
theorem parse_heads (t : Texts) (n : Nat) (toks : List TK) (hn : toks.length + 4 ≤ n) (f : Forest NK Unit) (hf : Heads (number toks) f) :
    ∃ l, parseTop t n (start toks) = .ok (some (), ⟨l, ⟨(Forest.tree .StmtList f .nil).flat, []⟩⟩) := by
  by_cases hne : toks = []
  · subst hne
    have : f = .nil := by
      have hn : number ([] : List TK) = [] := rfl
      rw [hn] at hf
      cases hf
      rfl
    subst this
    exact ⟨_, parseTop_nil t n⟩
  · have hlen : (number toks).length = toks.length := by simp [number]
    obtain ⟨l, h1, h2⟩ := does_heads t n n hf n (by omega) (by omega) ⟨Lex.main toks, ((start toks).g.startTree ⟨.StmtList, .ext 0⟩).1⟩
      (cur_main hne) rfl
    refine ⟨l, ?_⟩
    unfold parseTop node
    rw [show (⟨(start toks).lex, ((start toks).g.startTree ⟨.StmtList, .ext 0⟩).1⟩ : St)
      = ⟨Lex.main toks, ((start toks).g.startTree ⟨.StmtList, .ext 0⟩).1⟩ from rfl, h1]
    have e := endTree_close ([] : List (Node NK Unit)) f.flat (.StmtList : NK) []
    simp only [List.nil_append, List.length_nil, Nat.zero_add] at e
    have hg : guardEnd (start toks).g.pending.length
        (⟨((start toks).g.startTree ⟨.StmtList, .ext 0⟩).1.nodes ++ f.flat,
          ((start toks).g.startTree ⟨.StmtList, .ext 0⟩).1.pending⟩ : Group NK Unit)
        = .ok ⟨⟨.StmtList, .ext f.flat.length⟩ :: f.flat, []⟩ := by
      unfold guardEnd
      have : (⟨((start toks).g.startTree ⟨.StmtList, .ext 0⟩).1.nodes ++ f.flat,
          ((start toks).g.startTree ⟨.StmtList, .ext 0⟩).1.pending⟩ : Group NK Unit)
          = ⟨⟨.StmtList, .ext 0⟩ :: f.flat, [1]⟩ := by simp [start, Group.startTree]
      rw [this, e]
      rfl
    dsimp only at hg ⊢
    rw [hg]
    simp [Forest.flat, flat_length]

end Verif.Parser
