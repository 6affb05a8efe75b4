import Verif.Proofs.GraphSubst
import Verif.Props.Eval
/-
C37 with substitution references.
-/
namespace Hastur

open Res

private def txt (s : String) : Ast := .constant .synthetic ⟨.synthetic, s.toList⟩
private def ref (s : String) : Ast := .varRef .synthetic (txt s)
private def cat (as : List Ast) : Ast := .concat .synthetic as
private def noFs : Fs := fun _ => .missing
private theorem not_subst {s : Str} (h : ':' ∉ s) : ¬ IsSubst s := by
  rintro ⟨a, b, c, rfl, _⟩; simp at h

/-- C37: a variable on a cycle never gets a value, also when the cycle goes through substitution references such as
`$(x:.c=.o)`.  Not covered: substitution references whose name or suffixes contain further references (the code may then
take another part of the text for the name, see C37_computed_refuted), and databases with `$(eval ...)`; for both the
claim is false. -/
theorem C37_cycle_with_substitutions_partial (fs : Fs) (a : Ast) (st : St) (x : Str) (ha : a.WF) (hst : st.WF)
    (hna : ¬ HasEval a.flat) (hv : ∀ v p, st.db.getVariable v = some p → ¬ HasEval p.value.flat)
    (hwa : a.WholeNames) (hw : ∀ v p, st.db.getVariable v = some p → p.value.WholeNames)
    (hm : Uses st.env x a.flat) (hx : Relation.TransGen (RefersTo st.env) x x) :
    ∀ n y, evalF fs n a st ≠ .ok y := by
  intro n y h
  have hne : st.NoEval := fun v c hc => by
    obtain ⟨p, hp, rfl⟩ := Option.map_eq_some_iff.mp hc
    exact hv v p hp
  have hwn : st.WholeNames := fun v c hc => by
    obtain ⟨p, hp, rfl⟩ := Option.map_eq_some_iff.mp hc
    exact hw v p hp
  simp only [evalF, Rec.eval] at h
  obtain ⟨z, hz, _⟩ := bind_eq_ok.mp h
  have hdef : st.env x ≠ none := by
    obtain ⟨w, ⟨body, hb, _⟩, _⟩ := Relation.TransGen.head'_iff.mp hx
    rw [hb]; simp
  obtain ⟨m, _, hr⟩ := reached_of_uses fs n a st z x ha hwa hst hne hna hz hm hdef
  exact cycle_uses_diverges fs m st x hst hwn hne hx hr

/-- `x = $(y:.c=.o)`, `y = a$(x)`: a cycle of two variables through a substitution reference. -/
private def sloop : St := (St.init.define ['x'] (ref "y:.c=.o")).define ['y'] (cat [txt "a", ref "x"])

example : ∀ n y, evalF noFs n (ref "x:b=c") sloop ≠ .ok y := by
  obtain ⟨h1, e1⟩ := St.init_wf.define (s := ['x']) (a := ref "y:.c=.o") (f := .recursive) (by show AsciiS _; unfold AsciiS; decide)
  obtain ⟨h2, e2⟩ := h1.define (s := ['y']) (a := cat [txt "a", ref "x"]) (f := .recursive)
    ⟨(by show AsciiS _; unfold AsciiS; decide), (by show AsciiS _; unfold AsciiS; decide), trivial⟩
  have hx : sloop.env ['x'] = some (ref "y:.c=.o").flat := (e2 _).trans (e1 _)
  have hy : sloop.env ['y'] = some (cat [txt "a", ref "x"]).flat := e2 _
  have t : ∀ s, ¬ HasEval (txt s).flat := fun s => not_hasEval_text
  have n : ¬ HasEval [] := not_hasEval_text (t := [])
  have w : ∀ s, (ref s).WholeNames := fun s => ⟨trivial, fun t _ _ => ⟨_, _, rfl⟩⟩
  have h0 : ∀ (w : VariableName) p, sloop.db.getVariable w = some p → p.value = cat [txt "a", ref "x"] ∨ p.value = ref "y:.c=.o" := by
    intro w p hp
    have h0 : sloop.db.getVariable w =
        if w = ⟨1⟩ then some ⟨cat [txt "a", ref "x"], .recursive, .file⟩ else
        if w = ⟨0⟩ then some ⟨ref "y:.c=.o", .recursive, .file⟩ else none := by
      refine (AMap.get_insert _ _ _ _).trans ?_
      congr 1
      exact AMap.get_insert _ _ _ _
    rw [h0] at hp
    split at hp
    · cases hp; exact .inl rfl
    · split at hp
      · cases hp; exact .inr rfl
      · cases hp
  have s1 : RefersTo sloop.env ['x'] ['y'] :=
    ⟨_, hx, .subst (l := .synthetic) (t := locate .synthetic "y:.c=.o".toList) (k := ".c".toList) (r := ".o".toList)
      (List.mem_singleton.mpr rfl) rfl (by decide) (by decide)⟩
  have s2 : RefersTo sloop.env ['y'] ['x'] :=
    ⟨_, hy, .ref (l := .synthetic) (List.mem_append_right _ (List.mem_append_left _ (List.mem_singleton.mpr rfl)))
      (Expands.text _ (locate .synthetic ['x'])) (not_subst (by decide)) rfl⟩
  refine C37_cycle_with_substitutions_partial noFs _ sloop ['x'] (by show AsciiS _; unfold AsciiS; decide) h2
    (not_hasEval_ref (t _)) ?_ (w _) ?_ ?_ (.tail (.single s1) s2)
  · intro v p hp
    rcases h0 v p hp with e | e <;> rw [e]
    · exact not_hasEval_append (t _) (not_hasEval_append (not_hasEval_ref (t _)) n)
    · exact not_hasEval_ref (t _)
  · intro v p hp
    rcases h0 v p hp with e | e <;> rw [e]
    · exact ⟨trivial, w _, trivial⟩
    · exact w _
  · exact .subst (l := .synthetic) (t := locate .synthetic "x:b=c".toList) (k := ['b']) (r := ['c'])
      (List.mem_singleton.mpr rfl) rfl (by decide) (by decide)

end Hastur
