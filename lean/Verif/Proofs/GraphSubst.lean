import Verif.Spec.Uses
import Verif.Proofs.Graph
import Verif.Proofs.SubstRef
/-
The reference graph with substitution references: cycles make evaluation diverge.
-/
namespace Hastur

open Res

/-- The values in the database have names in one piece. -/
def St.WholeNames (st : St) : Prop := ∀ v a, st.db.valueOf v = some a → a.WholeNames

theorem Uses.split {env : Env} {y : Str} {es fs : List Expr} (h : Uses env y (es ++ fs)) :
    Uses env y es ∨ Uses env y fs := by
  cases h with
  | ref h h2 h3 h4 => exact (List.mem_append.mp h).imp (fun h => .ref h h2 h3 h4) fun h => .ref h h2 h3 h4
  | subst h h2 h3 h4 => exact (List.mem_append.mp h).imp (fun h => .subst h h2 h3 h4) fun h => .subst h h2 h3 h4
  | name h h2 => exact (List.mem_append.mp h).imp (fun h => .name h h2) fun h => .name h h2

theorem not_uses_text {env : Env} {y : Str} {t : List LChar} : ¬ Uses env y (Expr.text t) := by
  intro h
  cases h with
  | ref h => simp [Expr.text] at h
  | subst h => simp [Expr.text] at h
  | name h => simp [Expr.text] at h

theorem last_char (c : Char) (t : List LChar) : c ∉ textOf t ∨ ∃ a l b, t = a ++ (c, l) :: b ∧ c ∉ textOf b := by
  induction t with
  | nil => exact .inl (by simp [textOf])
  | cons x t ih =>
    rcases ih with ih | ⟨a, l, b, rfl, hb⟩
    · by_cases hx : x.1 = c
      · exact .inr ⟨[], x.2, t, by rw [← hx]; rfl, ih⟩
      · exact .inl (by simp only [textOf, List.map_cons, List.mem_cons, not_or]; exact ⟨fun e => hx e.symm, ih⟩)
    · exact .inr ⟨x :: a, l, b, rfl, hb⟩

/-- The parts of a text that is a substitution reference to `y`. -/
theorem subst_parts {t : List LChar} {y k r : Str} (h : textOf t = y ++ ':' :: (k ++ '=' :: r)) (hk : ':' ∉ k) (hr : ':' ∉ r) :
    ∃ n l k' l' r', t = n ++ (':', l) :: (k' ++ ('=', l') :: r') ∧ textOf n = y ∧ ':' ∉ textOf k' ∧ ':' ∉ textOf r' ∧
      '=' ∉ textOf r' := by
  obtain ⟨n, m, rfl, hn, hm⟩ := List.map_eq_append_iff.mp h
  obtain ⟨x, u, rfl, hx, hu⟩ := List.map_eq_cons_iff.mp hm
  have hc : ':' ∉ textOf u := by
    rw [show textOf u = k ++ '=' :: r from hu]; simp [hk, hr]
  rcases last_char '=' u with he | ⟨a, l', b, rfl, hb⟩
  · rw [show textOf u = k ++ '=' :: r from hu] at he; simp at he
  · obtain ⟨c, l⟩ := x
    cases hx
    refine ⟨n, l, a, l', b, rfl, hn, fun h => hc ?_, fun h => hc ?_, hb⟩
    · simp only [textOf, List.map_append, List.mem_append] at h ⊢; exact .inl h
    · simp only [textOf, List.map_append, List.mem_append, List.map_cons, List.mem_cons] at h ⊢; exact .inr (.inr h)

/-- If evaluation returns, every variable used and defined has been evaluated, with a smaller budget. -/
theorem reached_of_uses (fs : Fs) (n : Nat) : ∀ (a : Ast) (st : St) (x : (Sens × List CRef) × St) (y : Str),
    a.WF → a.WholeNames → st.WF → st.NoEval → ¬ HasEval a.flat → (recF fs n).evalInternal a st = .ok x →
    Uses st.env y a.flat → st.env y ≠ none → ∃ m, m < n ∧ Reached fs st y m := by
  induction n with
  | zero => intro a st x y _ _ _ _ _ h; cases h
  | succ n ih =>
    have hlist : ∀ (as : List Ast) (st : St) (sens : Sens) (out : List CRef) (x : (Sens × List CRef) × St) (y : Str),
        Ast.WFList as → Ast.WholeNamesList as → st.WF → st.NoEval → ¬ HasEval (Ast.flatList as) →
        evalConcat (recF fs n) as sens out st = .ok x →
        Uses st.env y (Ast.flatList as) → st.env y ≠ none → ∃ m, m < n ∧ Reached fs st y m := by
      intro as
      induction as with
      | nil =>
        intro st sens out x y _ _ _ _ _ _ hm
        exact absurd hm (not_uses_text (t := []))
      | cons a as ihl =>
        intro st sens out x y hw hwn hst hne ha h hm hy
        simp only [evalConcat] at h
        obtain ⟨z, h1, h2⟩ := Res.bind_eq_ok.mp h
        have ha1 : ¬ HasEval a.flat := fun hh => ha (hh.append_right _)
        have ha2 : ¬ HasEval (Ast.flatList as) := fun hh => ha (hh.append_left _)
        rcases Uses.split hm with hm | hm
        · exact ih a st z y hw.1 hwn.1 hst hne ha1 h1 hm hy
        · obtain ⟨e1, cs, e2⟩ := evalInternal_same hne ha1 h1
          have henv := hst.env_after e1 e2
          obtain ⟨m, hm1, hm2⟩ := ihl z.2 _ _ x y hw.2 hwn.2 (hst.after e1 e2) (by unfold St.NoEval; rw [e1]; exact hne) ha2 h2
            (by rw [henv]; exact hm) (by rw [henv]; exact hy)
          exact ⟨m, hm1, hm2.mono e1 e2⟩
    intro a st x y ha hwn hst hne hna h hm hy
    have h' := h
    have h : evalStep (recF fs n) a st = .ok x := h
    cases a with
    | empty l => exact absurd hm (not_uses_text (t := []))
    | constant l s => exact absurd hm not_uses_text
    | preEvaluated l b => exact absurd hm not_uses_text
    | concat l cs =>
      obtain ⟨m, h1, h2⟩ := hlist cs st [] [] x y ha hwn hst hne hna h hm hy
      exact ⟨m, by omega, h2⟩
    | eval l a => exact absurd (.eval (List.mem_singleton.mpr rfl)) hna
    | strip l a => cases h
    | word l i w => cases h
    | words l a => cases h
    | varRef l name =>
      have hna' := not_hasEval_name hna
      cases hm with
      | name hm hm2 =>
        cases List.mem_singleton.mp hm
        simp only [evalStep, evalVarRef] at h
        obtain ⟨⟨nb, st1⟩, h1, h2⟩ := Res.bind_eq_ok.mp h
        simp only [Rec.eval] at h1
        obtain ⟨z, h3, _⟩ := Res.bind_eq_ok.mp h1
        obtain ⟨m, h1, h2⟩ := ih name st z y ha hwn.1 hst hne hna' h3 hm2 hy
        exact ⟨m, by omega, h2⟩
      | ref hm he hs hyt =>
        cases List.mem_singleton.mp hm
        exact reached_of_mentions fs (n + 1) (.varRef l name) st x y ha hst hne hna h'
          (.ref (l := l) (List.mem_singleton.mpr rfl) he hs hyt) hy
      | @subst l' t k r es hm ht hk hr =>
        have hft : name.flat = Expr.text t := by
          have := List.mem_singleton.mp hm
          simp only [Expr.ref.injEq] at this
          exact this.2.symm
        have htn : t ≠ [] := by rintro rfl; simp [textOf] at ht
        obtain ⟨lc, s, rfl⟩ := hwn.2 t hft htn
        simp only [evalStep, evalVarRef] at h
        obtain ⟨⟨nb, st1⟩, h1, h2⟩ := Res.bind_eq_ok.mp h
        have h1' := h1
        simp only [Rec.eval] at h1
        obtain ⟨z, h3, _⟩ := Res.bind_eq_ok.mp h1
        obtain ⟨e1, e2⟩ := evals_unique (a := .constant lc s) (t := t) (vs := []) ha hst (by rw [hft]; exact Expands.text _ _) h3
        have hev : Evals fs st n (.constant lc s) t [] := ⟨z.1.1, z.1.2, by rw [h3, ← e1], e2⟩
        obtain ⟨b, b1, b2, b3, b4, b5⟩ := hev.eval
        rw [h1'] at b1
        cases b1
        have hat := Block.span_at b4 b5
        obtain ⟨nn, l1, k', l2, r', rfl, hn, hk', hr1, hr2⟩ := subst_parts ht hk hr
        rw [b2] at hat
        obtain ⟨ni, ki, ri, hce, hni, hki, hri⟩ := colonFind_some hat (onePiece_constant fs lc s st n nb _ h1') hk' hr1 hr2
        have hnl : usub ni.length 1 = .ok nn.length := by rw [hni.length, usub_of_le (by simp)]; simp
        have hkl : usub ki.length 1 = .ok k'.length := by rw [hki.length, usub_of_le (by simp)]; simp
        have hni' := hni.sliceTo (n := nn.length) (by simp)
        rw [List.take_left] at hni'
        have hki' := hki.sliceTo (n := k'.length) (by simp)
        rw [List.take_left] at hki'
        obtain ⟨nb', nb1, nb2⟩ := hni'.part
        obtain ⟨kb, kb1, kb2⟩ := hki'.part
        obtain ⟨rb, rb1, rb2⟩ := hri.part
        have hstr : nb'.intoString = .ok y := by rw [Block.intoString_eq nb' nb2.wf, Block.text, nb2.ltext, hn]
        obtain ⟨hv, henv⟩ := (hst.interned []).intern y
        rw [hst.env_interned []] at henv
        obtain ⟨p, hp⟩ : ∃ p, (st.interned []).db.getVariable ((st.interned []).names.internVar y).1 = some p := by
          cases hp : (st.interned []).db.getVariable ((st.interned []).names.internVar y).1 with
          | some p => exact ⟨p, rfl⟩
          | none => rw [hp] at henv; exact absurd henv hy
        simp only [hce, Res.ok_bind, hnl, hkl, nb1, kb1, rb1, hstr, derefVariable, hp] at h2
        obtain ⟨q, h4, _⟩ := Res.bind_eq_ok.mp h2
        obtain ⟨w, h5, _⟩ := Res.bind_eq_ok.mp h4
        simp only [Rec.eval] at h5
        obtain ⟨u, h6, _⟩ := Res.bind_eq_ok.mp h5
        exact ⟨n, by omega, ((st.interned []).interned [y]), _, p, u, rfl, ⟨[.var y], rfl⟩, hv, hp, h6⟩

/-- A variable on a cycle of the reference graph is never evaluated successfully. -/
theorem cycle_uses_diverges (fs : Fs) (m : Nat) : ∀ (st : St) (x : Str), st.WF → st.WholeNames → st.NoEval →
    Relation.TransGen (RefersTo st.env) x x → ¬ Reached fs st x m := by
  induction m using Nat.strongRecOn with
  | _ m ih =>
    intro st x hst hwn hne hcyc ⟨st', v, p, z, hd, ⟨cs, hn⟩, hv, hp, hev⟩
    have henv := hst.env_after hd hn
    have hx : st.env x = some p.value.flat := by
      rw [← henv]
      simp only [St.env, hv, Option.bind_some, hd, hp, Option.map_some]
    obtain ⟨y, ⟨body, hb, hm⟩, hyx⟩ := Relation.TransGen.head'_iff.mp hcyc
    rw [hx] at hb
    cases hb
    have hcy : Relation.TransGen (RefersTo st.env) y y :=
      Relation.TransGen.tail' hyx ⟨_, hx, hm⟩
    have hy : st.env y ≠ none := by
      obtain ⟨w, ⟨body, hb, _⟩, _⟩ := Relation.TransGen.head'_iff.mp hcy
      rw [hb]; simp
    have hval : st.db.valueOf v = some p.value := by simp [Database.valueOf, hp]
    obtain ⟨k, hk1, hk2⟩ := reached_of_uses fs m p.value st' z y (hst.values v p hp) (hwn v _ hval) (hst.after hd hn)
      (by unfold St.NoEval; rw [hd]; exact hne) (hne v _ hval) hev (by rw [henv]; exact hm) (by rw [henv]; exact hy)
    exact ih k hk1 st y hst hwn hne hcy (hk2.mono hd hn)

end Hastur
