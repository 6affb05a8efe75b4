import Verif.Proofs.Eval
/-
Evaluation of trees that stand for plain text: it works in every state.
-/
namespace Hastur

open Res

theorem Expr.text_append (a b : List LChar) : Expr.text (a ++ b) = Expr.text a ++ Expr.text b := by simp [Expr.text]

theorem Expr.text_inj {a b : List LChar} (h : Expr.text a = Expr.text b) : a = b := by
  induction a generalizing b with
  | nil => cases b with
    | nil => rfl
    | cons y b => cases h
  | cons x a ih =>
    cases b with
    | nil => cases h
    | cons y b =>
      simp only [Expr.text, List.map_cons, List.cons.injEq, Expr.char.injEq] at h
      rw [h.1, ih h.2]

theorem Expr.text_split {xs ys : List Expr} {t : List LChar} (h : xs ++ ys = Expr.text t) :
    ∃ a b, t = a ++ b ∧ xs = Expr.text a ∧ ys = Expr.text b := by
  obtain ⟨a, b, h1, h2, h3⟩ := List.map_eq_append_iff.mp h.symm
  exact ⟨a, b, h1, h2.symm, h3.symm⟩

/-- The tree is evaluated, in any state and without changing it, to references with the given text. -/
def Constant (N : Nat) (a : Ast) (t : List LChar) : Prop :=
  ∀ (fs : Fs) (n : Nat) (st : St), N ≤ n → ∃ cs, (recF fs n).evalInternal a st = .ok (([], cs), st) ∧
    CRef.WFList cs ∧ CRef.ltextList cs = t

mutual
theorem eval_text : ∀ (a : Ast) (t : List LChar), a.WF → a.flat = Expr.text t → ∃ N, Constant N a t
  | .empty l, t, _, h => by
    have : t = [] := Expr.text_inj (b := []) h.symm
    subst this
    refine ⟨1, fun fs n st hn => ?_⟩
    obtain ⟨n, rfl⟩ := Nat.exists_eq_add_of_le' hn
    exact ⟨[], rfl, trivial, rfl⟩
  | .constant l s, t, ha, h => by
    have : t = s.ltext := Expr.text_inj h.symm
    subst this
    refine ⟨1, fun fs n st hn => ?_⟩
    obtain ⟨n, rfl⟩ := Nat.exists_eq_add_of_le' hn
    exact ⟨[CRef.ofNode (.constant s)], rfl, ⟨CRef.ofNode_wf (n := .constant s) ha, trivial⟩,
      by simp [CRef.ltextList, CRef.ofNode_ltext (n := .constant s) ha, Node.ltext]⟩
  | .preEvaluated l b, t, ha, h => by
    have : t = Block.ltext b := Expr.text_inj h.symm
    subst this
    refine ⟨1, fun fs n st hn => ?_⟩
    obtain ⟨n, rfl⟩ := Nat.exists_eq_add_of_le' hn
    exact ⟨b.content, rfl, by rw [← Block.wf_eq]; exact ha, by rw [Block.ltext_eq]⟩
  | .concat l cs, t, ha, h => by
    obtain ⟨N, hN⟩ := evalConcat_text cs t ha h
    refine ⟨N + 1, fun fs n st hn => ?_⟩
    obtain ⟨n, rfl⟩ := Nat.exists_eq_add_of_le' hn
    obtain ⟨out, h1, h2, h3⟩ := hN fs (n + N) st [] trivial (by omega)
    exact ⟨out, h1, h2, h3⟩
  | .varRef l n, t, _, h => by cases t <;> cases h
  | .eval l a, t, _, h => by cases t <;> cases h
  | .strip l a, t, _, h => by cases t <;> cases h
  | .word l i w, t, _, h => by cases t <;> cases h
  | .words l a, t, _, h => by cases t <;> cases h

theorem evalConcat_text : ∀ (as : List Ast) (t : List LChar), Ast.WFList as → Ast.flatList as = Expr.text t →
    ∃ N, ∀ (fs : Fs) (n : Nat) (st : St) (out : List CRef), CRef.WFList out → N ≤ n →
      ∃ cs, evalConcat (recF fs n) as [] out st = .ok (([], cs), st) ∧ CRef.WFList cs ∧
        CRef.ltextList cs = CRef.ltextList out ++ t
  | [], t, _, h => by
    have : t = [] := Expr.text_inj (b := []) h.symm
    subst this
    exact ⟨0, fun fs n st out ho hn => ⟨out, rfl, ho, by simp⟩⟩
  | a :: as, t, ha, h => by
    obtain ⟨t1, t2, rfl, h1, h2⟩ := Expr.text_split h
    obtain ⟨N, hN⟩ := eval_text a t1 ha.1 h1
    obtain ⟨M, hM⟩ := evalConcat_text as t2 ha.2 h2
    refine ⟨max N M, fun fs n st out ho hn => ?_⟩
    obtain ⟨c1, g1, g2, g3⟩ := hN fs n st (by omega)
    obtain ⟨c2, k1, k2, k3⟩ := hM fs n st (out ++ c1) (CRef.wfList_append.mpr ⟨ho, g2⟩) (by omega)
    refine ⟨c2, ?_, k2, by rw [k3, CRef.ltextList_append, g3, List.append_assoc]⟩
    simp only [evalConcat, g1, Res.ok_bind]
    exact k1
end

theorem evalF_text {a : Ast} {t : List LChar} (ha : a.WF) (h : a.flat = Expr.text t) :
    ∃ N, ∀ (fs : Fs) (n : Nat) (st : St), N ≤ n → ∃ b, evalF fs n a st = .ok (b, st) ∧ Block.ltext b = t ∧ b.sens = [] ∧
      Block.WF b ∧ b.Solid := by
  obtain ⟨N, hN⟩ := eval_text a t ha h
  refine ⟨N, fun fs n st hn => ?_⟩
  obtain ⟨cs, h1, h2, h3⟩ := hN fs n st hn
  obtain ⟨b, g1, g2, g3, g4, g5⟩ := eval_of_internal h1 h2
  exact ⟨b, g1, by rw [g2, h3], g3, g4, g5⟩

end Hastur
