import Verif.Proofs.GraphAll
import Verif.Props.Stored
/-
C72: expansion does not abort; C37: without cycles expansion returns, also with substitution references.
-/
namespace Hastur

open Res

private def txt (s : String) : Ast := .constant .synthetic ⟨.synthetic, s.toList⟩
private def ref (s : String) : Ast := .varRef .synthetic (txt s)
private def cat (as : List Ast) : Ast := .concat .synthetic as
private def noFs : Fs := fun _ => .missing

/-! ### C72 -/

/-- C72: expanding an expression does not abort the process when neither the expression nor the value of a variable
contains a function call, whatever references and substitution references there are. -/
theorem C72_expansion_never_aborts (fs : Fs) (n : Nat) (a : Ast) (st : St) (ha : a.WF) (hst : st.WF)
    (hna : ¬ HasCall a.flat) (hv : ∀ v p, st.db.getVariable v = some p → ¬ HasCall p.value.flat) :
    ∀ e, evalF fs n a st ≠ .panic e := by
  have hne : st.NoCall := fun v c hc => by
    obtain ⟨p, hp, rfl⟩ := Option.map_eq_some_iff.mp hc
    exact hv v p hp
  intro e h
  rcases (evalInternal_safe fs n a st ha hst hne hna).block with h' | ⟨b, _, _, st', _, h', _⟩
  · rw [show (recF fs n).eval a st = evalF fs n a st from rfl, h] at h'; cases h'
  · rw [show (recF fs n).eval a st = evalF fs n a st from rfl, h] at h'; cases h'

/-- C72 for the states the engine reaches with ASCII makefiles: asking for the value of a variable does not abort. -/
theorem C72_variables_never_abort (fs : Fs) (hfs : ∀ name s, fs name = .text s → AsciiS s) (st : St)
    (hst : Reachable fs st) (hv : ∀ v p, st.db.getVariable v = some p → ¬ HasCall p.value.flat) (n : Nat)
    (v : VariableName) : ∀ e, expandF fs n v st ≠ .panic e := by
  intro e h
  have hw := (C59_states_wellformed fs hfs st hst).1
  unfold expandF at h
  cases hp : st.db.getVariable v with
  | none => rw [hp] at h; cases h
  | some p =>
    have hne : st.NoCall := fun v c hc => by
      obtain ⟨p, hp, rfl⟩ := Option.map_eq_some_iff.mp hc
      exact hv v p hp
    rw [hp] at h
    have hs := (evalInternal_safe fs n p.value st (hw.values v p hp) hw hne (hv v p hp)).block
    rw [show (recF fs n).eval p.value st = evalF fs n p.value st from rfl] at hs
    rcases hs with h' | ⟨b, _, _, st', _, h', hb, _⟩
    · simp only [h'] at h; cases h
    · simp only [h', ok_bind, Block.intoString_eq b hb] at h
      cases h

/-- C72: the substitution of words itself gives a result for every value, key and replacement, also those on which it
gives the wrong one (C38). -/
theorem C72_substitution_total (sens : Sens) (value key replacement : Block) (hv : Block.WF value) (hv' : value.Solid)
    (hk : Block.WF key) (hk' : key.Solid) (hr : Block.WF replacement) (hr' : replacement.Solid) :
    ∃ b, doSubref sens value key replacement = .ok b ∧ Block.WF b := by
  obtain ⟨b, h1, h2, _⟩ := doSubref_total sens hv hv' hk hk' hr hr'
  exact ⟨b, h1, h2⟩

/-! ### C37 -/

/-- C37: when no variable can reach itself, expansion returns: some budget suffices, and every larger one gives the
same result.  Substitution references are included.  Missing: function calls, for which the claim is false
(C37_refuted).  A substitution reference with a computed name counts as a reference to every variable whose name begins
the text in front of the colon, since that is what the code may look up. -/
theorem C37_acyclic_with_substitutions_partial (fs : Fs) (a : Ast) (st : St) (ha : a.WF) (hst : st.WF)
    (hna : ¬ HasCall a.flat) (hv : ∀ v p, st.db.getVariable v = some p → ¬ HasCall p.value.flat)
    (hwa : a.WholeNames) (hw : ∀ v p, st.db.getVariable v = some p → p.value.WholeNames)
    (hacyc : ∀ x, ¬ Relation.TransGen (MayRefer st.env) x x) :
    ∃ N r, ∀ n, N ≤ n → evalF fs n a st = .ok r := by
  have hne : st.NoCall := fun v c hc => by
    obtain ⟨p, hp, rfl⟩ := Option.map_eq_some_iff.mp hc
    exact hv v p hp
  have hwn : st.WholeNames := fun v c hc => by
    obtain ⟨p, hp, rfl⟩ := Option.map_eq_some_iff.mp hc
    exact hw v p hp
  obtain ⟨N, x, hx⟩ := returns_of_values fs _ a st (Nat.le_refl _) ha hwa hst hne hna
    fun y _ => values_return fs hst hne hwn hacyc y
  rcases evalInternal_safe fs N a st ha hst hne hna with h | ⟨s, cs, st', h, hwl, _⟩
  · rw [hx] at h; cases h
  · obtain ⟨b, b1, _⟩ := Block.new_spec (sens := s) hwl
    refine ⟨N, (b, st'), fun n hn => evalF_mono hn ?_⟩
    show (recF fs N).eval a st = _
    simp only [Rec.eval, h, ok_bind, b1]
    rfl

/-- `x = $(y:.c=.o)`, `y = a.c $(z)`, `z` not defined. -/
private def chain : St := (St.init.define ['x'] (ref "y:.c=.o")).define ['y'] (cat [txt "a.c ", ref "z"])

private theorem not_call_text {t : List LChar} : ¬ HasCall (Expr.text t) := by
  intro h
  cases h with
  | eval h => simp [Expr.text] at h
  | strip h => simp [Expr.text] at h
  | word h => simp [Expr.text] at h
  | words h => simp [Expr.text] at h
  | ref h => simp [Expr.text] at h

private theorem not_call_ref (s : String) : ¬ HasCall (ref s).flat := by
  intro h
  cases h with
  | eval h => cases List.mem_singleton.mp h
  | strip h => cases List.mem_singleton.mp h
  | word h => cases List.mem_singleton.mp h
  | words h => cases List.mem_singleton.mp h
  | ref h h' =>
    cases List.mem_singleton.mp h
    exact not_call_text h'

private theorem not_call_append {es fs : List Expr} (h : ¬ HasCall es) (h' : ¬ HasCall fs) : ¬ HasCall (es ++ fs) := by
  intro hh
  cases hh with
  | eval m => exact (List.mem_append.mp m).elim (fun m => h (.eval m)) fun m => h' (.eval m)
  | strip m => exact (List.mem_append.mp m).elim (fun m => h (.strip m)) fun m => h' (.strip m)
  | word m => exact (List.mem_append.mp m).elim (fun m => h (.word m)) fun m => h' (.word m)
  | words m => exact (List.mem_append.mp m).elim (fun m => h (.words m)) fun m => h' (.words m)
  | ref m mm => exact (List.mem_append.mp m).elim (fun m => h (.ref m mm)) fun m => h' (.ref m mm)

private theorem chain_facts : chain.WF ∧ (∀ s, chain.env s = if s = ['y'] then some (cat [txt "a.c ", ref "z"]).flat else
      if s = ['x'] then some (ref "y:.c=.o").flat else none) ∧
    ∀ v p, chain.db.getVariable v = some p → p.value = cat [txt "a.c ", ref "z"] ∨ p.value = ref "y:.c=.o" := by
  obtain ⟨h1, e1⟩ := St.init_wf.define (s := ['x']) (a := ref "y:.c=.o") (f := .recursive) (by show AsciiS _; unfold AsciiS; decide)
  obtain ⟨h2, e2⟩ := h1.define (s := ['y']) (a := cat [txt "a.c ", ref "z"]) (f := .recursive)
    ⟨(by show AsciiS _; unfold AsciiS; decide), (by show AsciiS _; unfold AsciiS; decide), trivial⟩
  refine ⟨h2, fun s => (e2 s).trans (by congr 1; exact (e1 s).trans rfl), ?_⟩
  intro w p hp
  have h0 : chain.db.getVariable w =
      if w = ⟨1⟩ then some ⟨cat [txt "a.c ", ref "z"], .recursive, .file⟩ else
      if w = ⟨0⟩ then some ⟨ref "y:.c=.o", .recursive, .file⟩ else none := by
    refine (AMap.get_insert _ _ _ _).trans ?_
    congr 1
    exact AMap.get_insert _ _ _ _
  rw [h0] at hp
  split at hp
  · cases hp; exact .inl rfl
  · split at hp
    · cases hp; exact .inr rfl
    · cases hp

private theorem chain_calm : ∀ v p, chain.db.getVariable v = some p → ¬ HasCall p.value.flat := by
  intro v p hp
  rcases chain_facts.2.2 v p hp with e | e <;> rw [e]
  · exact not_call_append not_call_text (not_call_append (not_call_ref "z") (not_call_text (t := [])))
  · exact not_call_ref _

/-- The only variable a reference with a written-out name uses. -/
private theorem mayUse_ref {env : Env} {y : Str} {l : Location} {t : List LChar} {p : Str}
    (h : MayUse env y [.ref l (Expr.text t)])
    (hp : (¬ IsSubst (textOf t) ∧ textOf t = p) ∨ ∃ k r, textOf t = p ++ ':' :: (k ++ '=' :: r) ∧ ':' ∉ k ∧ ':' ∉ r) :
    y = p := by
  cases h with
  | @ref l' name es n h h2 h3 h4 =>
    cases List.mem_singleton.mp h
    have := h2.of_text
    subst this
    rcases hp with ⟨_, hp⟩ | ⟨k, r, e, hk, hr⟩
    · exact h4.symm.trans hp
    · exact absurd ⟨p, k, r, e, hk, hr⟩ h3
  | @subst l' t' k r es h h2 h3 h4 =>
    have he := List.mem_singleton.mp h
    simp only [Expr.ref.injEq] at he
    have ht : t' = t := List.map_injective_iff.mpr (fun a b e => by cases e; rfl) he.2
    subst ht
    rcases hp with ⟨hn, hp⟩ | ⟨k', r', e, hk, hr⟩
    · exact absurd ⟨y, k, r, h2, h3, h4⟩ hn
    · obtain ⟨n1, _, k1, _, r1, f1, f2, f3, f4, _⟩ := subst_parts h2 h3 h4
      obtain ⟨n2, _, k2, _, r2, g1, g2, g3, g4, _⟩ := subst_parts e hk hr
      obtain ⟨rfl, _⟩ := last_split (f1.symm.trans g1) (by simp [f3, f4]) (by simp [g3, g4])
      rw [← f2, g2]
  | computed h h2 =>
    cases List.mem_singleton.mp h
    exact absurd rfl (h2 t)
  | name h h2 =>
    cases List.mem_singleton.mp h
    cases h2 with
    | ref h => simp [Expr.text] at h
    | subst h => simp [Expr.text] at h
    | computed h => simp [Expr.text] at h
    | name h => simp [Expr.text] at h

example : ∃ N r, ∀ n, N ≤ n → evalF noFs n (ref "x") chain = .ok r := by
  obtain ⟨hw, he, hv⟩ := chain_facts
  have w : ∀ s, (ref s).WholeNames := fun s => ⟨trivial, fun t _ _ => ⟨_, _, rfl⟩⟩
  refine C37_acyclic_with_substitutions_partial noFs (ref "x") chain (by show AsciiS _; unfold AsciiS; decide) hw
    (not_call_ref "x") chain_calm (w _) ?_ ?_
  · intro v p hp
    rcases hv v p hp with e | e <;> rw [e]
    · exact ⟨trivial, w _, trivial⟩
    · exact w _
  · -- every edge leads from `x` to `y` or from `y` to `z`
    have edge : ∀ a b, MayRefer chain.env a b → (a = ['x'] ∧ b = ['y']) ∨ (a = ['y'] ∧ b = ['z']) := by
      rintro a b ⟨body, hb, hm⟩
      rw [he] at hb
      split at hb
      · cases hb
        rename_i ha
        refine .inr ⟨ha, ?_⟩
        have hm : MayUse chain.env b (Expr.text (locate .synthetic "a.c ".toList) ++
          ([.ref .synthetic (Expr.text (locate .synthetic ['z']))] ++ [])) := hm
        have key : MayUse chain.env b [.ref .synthetic (Expr.text (locate .synthetic ['z']))] := by
          cases hm with
          | ref h h2 h3 h4 => exact .ref (by simpa [Expr.text] using h) h2 h3 h4
          | subst h h2 h3 h4 => exact .subst (by simpa [Expr.text] using h) h2 h3 h4
          | computed h h2 h3 h4 h5 h6 h7 => exact .computed (by simpa [Expr.text] using h) h2 h3 h4 h5 h6 h7
          | name h h2 => exact .name (by simpa [Expr.text] using h) h2
        exact mayUse_ref key (.inl ⟨by rintro ⟨a, b, c, e, _⟩; have := congrArg (fun l => ':' ∈ l) e; simp [locate, textOf] at this, rfl⟩)
      · split at hb
        · cases hb
          rename_i ha
          refine .inl ⟨ha, ?_⟩
          exact mayUse_ref (t := locate .synthetic "y:.c=.o".toList) hm (.inr ⟨".c".toList, ".o".toList, rfl, by decide, by decide⟩)
        · cases hb
    have two : ∀ a b, Relation.TransGen (MayRefer chain.env) a b → (a = ['x'] ∧ b ≠ ['x']) ∨ (a = ['y'] ∧ b = ['z']) := by
      intro a b h
      induction h with
      | single h =>
        rcases edge _ _ h with ⟨h1, h2⟩ | ⟨h1, h2⟩
        · exact .inl ⟨h1, by rw [h2]; decide⟩
        · exact .inr ⟨h1, h2⟩
      | tail _ h ih =>
        rcases edge _ _ h with ⟨h1, h2⟩ | ⟨h1, h2⟩
        · rcases ih with ⟨i1, i2⟩ | ⟨i1, i2⟩
          · exact absurd h1 i2
          · rw [i2] at h1; exact absurd h1 (by decide)
        · rcases ih with ⟨i1, i2⟩ | ⟨i1, i2⟩
          · exact .inl ⟨i1, by rw [h2]; decide⟩
          · exact .inr ⟨i1, h2⟩
    intro x hx
    rcases two _ _ hx with ⟨h1, h2⟩ | ⟨h1, h2⟩
    · exact h2 h1
    · rw [h1] at h2; exact absurd h2 (by decide)

/-- A reference with a computed name in the same state: `$($(y):.c=.o)`. -/
example : ∀ n e, evalF noFs n (.varRef .synthetic (cat [ref "y", txt ":.c=.o"])) chain ≠ .panic e := by
  intro n
  refine C72_expansion_never_aborts noFs n _ chain ⟨(by show AsciiS _; unfold AsciiS; decide), (by show AsciiS _; unfold AsciiS; decide), trivial⟩
    chain_facts.1 ?_ chain_calm
  intro h
  have hn : ¬ HasCall ((ref "y").flat ++ ((txt ":.c=.o").flat ++ [])) :=
    not_call_append (not_call_ref "y") (not_call_append not_call_text (not_call_text (t := [])))
  cases h with
  | eval h => cases List.mem_singleton.mp h
  | strip h => cases List.mem_singleton.mp h
  | word h => cases List.mem_singleton.mp h
  | words h => cases List.mem_singleton.mp h
  | ref h h' =>
    cases List.mem_singleton.mp h
    exact hn h'

mutual
/-- No function call in a syntax tree, as a check. -/
private def callFree : Ast → Bool
  | .concat _ cs => callFreeList cs
  | .varRef _ n => callFree n
  | .eval _ _ | .strip _ _ | .word _ _ _ | .words _ _ => false
  | _ => true
private def callFreeList : List Ast → Bool
  | [] => true
  | a :: as => callFree a && callFreeList as
end

mutual
private theorem callFree_spec : ∀ a : Ast, callFree a = true → ¬ HasCall a.flat
  | .empty _, _ => not_call_text (t := [])
  | .constant _ _, _ => not_call_text
  | .preEvaluated _ _, _ => not_call_text
  | .concat _ cs, h => callFreeList_spec cs (by simpa [callFree] using h)
  | .varRef _ n, h => by
    intro hh
    have hn := callFree_spec n (by simpa [callFree] using h)
    cases hh with
    | eval h => cases List.mem_singleton.mp h
    | strip h => cases List.mem_singleton.mp h
    | word h => cases List.mem_singleton.mp h
    | words h => cases List.mem_singleton.mp h
    | ref h h' =>
      cases List.mem_singleton.mp h
      exact hn h'
  | .eval _ _, h => by simp [callFree] at h
  | .strip _ _, h => by simp [callFree] at h
  | .word _ _ _, h => by simp [callFree] at h
  | .words _ _, h => by simp [callFree] at h
private theorem callFreeList_spec : ∀ as : List Ast, callFreeList as = true → ¬ HasCall (Ast.flatList as)
  | [], _ => not_call_text (t := [])
  | a :: as, h => by
    have h : callFree a = true ∧ callFreeList as = true := by simpa [callFreeList] using h
    exact not_call_append (callFree_spec a h.1) (callFreeList_spec as h.2)
end

private def oneFile (text : Str) : Fs := fun name => if name = ['f'] then .text text else .missing

/-- Two variables, one of which is a substitution reference to the other. -/
private def twoVars : Str := ['b', '=', '$', '(', 'a', ':', 'c', '=', 'd', ')', '\n', 'a', '=', 'e', 'c', '\n']

/-- Both variables are there, without function calls, and `b` expands to `ed`. -/
private def calm (st : St) : Bool :=
  st.db.variables.entries.all (fun e => callFree e.2.value) &&
  match st.names.variableName ['b'] with
  | some b => match expandF (oneFile twoVars) 5 b st with
    | .ok (some s, _) => s == ['e', 'd']
    | _ => false
  | none => false

private theorem twoVars_read : checkRead (oneFile twoVars) 5 ['f'] calm = true := by decide +kernel

example : ∃ fs st b st', (∀ name s, fs name = .text s → AsciiS s) ∧ Reachable fs st ∧
    (∀ v p, st.db.getVariable v = some p → ¬ HasCall p.value.flat) ∧
    expandF fs 5 b st = .ok (some ['e', 'd'], st') := by
  obtain ⟨st, h1, h2⟩ := reached_check twoVars_read
  unfold calm at h2
  rw [Bool.and_eq_true] at h2
  obtain ⟨h0, h2⟩ := h2
  have hc : ∀ v p, st.db.getVariable v = some p → ¬ HasCall p.value.flat := by
    intro v p hp
    obtain ⟨e, he, rfl⟩ := Option.map_eq_some_iff.mp hp
    exact callFree_spec _ (List.all_eq_true.mp h0 _ (List.mem_of_find?_eq_some he))
  have ha : ∀ name s, oneFile twoVars name = .text s → AsciiS s := by
    intro name s hs
    unfold oneFile at hs
    split at hs
    · cases hs; unfold AsciiS; decide
    · cases hs
  split at h2
  · split at h2
    · rename_i b _ _ s st' h3
      have : s = ['e', 'd'] := by simpa using h2
      subst this
      exact ⟨_, st, b, st', ha, h1, hc, h3⟩
    · cases h2
  · cases h2

end Hastur
