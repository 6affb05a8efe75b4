import Verif.Proofs.Include
import Verif.Proofs.RuleDemo
import Verif.Proofs.Fuel
import Verif.Spec.IncludeCycle
/-
Lemmas about files that include each other without end.
-/
namespace Hastur

open Res

variable {P : Block} {i : Span} {t : List LChar}

@[simp] theorem fuel_bind {α β : Type} (f : α → Res β) : (Res.fuel : Res α).bind f = .fuel := rfl

theorem Res.Le.fuel_or {α : Type} {x y : Res α} {a : α} (h : Res.Le x y) (hy : y = .ok a) : x = .fuel ∨ x = .ok a := by
  rcases h with rfl | rfl
  · exact .inl rfl
  · exact .inr hy

/-- What holds with enough budget holds with any budget, unless the budget is exhausted. -/
theorem parseLine_fuel_or {fs : Fs} {p : PState} {st : St} {N : Nat} {x : LineOut}
    (h : ∀ n, N ≤ n → parseLine fs (recF fs n) p st i = .ok x) (n : Nat) :
    parseLine fs (recF fs n) p st i = .fuel ∨ parseLine fs (recF fs n) p st i = .ok x :=
  (parseLine_le (recF_le fs (Nat.le_max_left n N)) fs p st i).fuel_or (h _ (Nat.le_max_right n N))

theorem readF_fuel_or {fs : Fs} {e : FsEntry} {f : Str} {st : St} {N : Nat} {x : Except MakefileError Unit × St}
    (h : ∀ n, N ≤ n → readF fs n e f st = .ok x) (n : Nat) : readF fs n e f st = .fuel ∨ readF fs n e f st = .ok x :=
  (readMakefile_le (recF_le fs (Nat.le_max_left n N)) e f st).fuel_or (h _ (Nat.le_max_right n N))

/-- If reading one of the files never ends, reading the list of files never ends. -/
theorem includeLoop_fuel {fs : Fs} {soft : Bool} {pre : List Str} {st st2 : St} {o : Option Str} {n : Nat} {g s : Str}
    (h : Includes fs soft pre st o st2) (ho : o = none) (hg : fs g = .text s) (hn : readF fs n (fs g) g st2 = .fuel) :
    ∀ {post : List Str} {ts : List (List LChar)} {bs : List Block}, Texts ts bs → pre ++ g :: post = ts.map textOf →
      includeLoop fs (recF fs n) soft bs st = .fuel := by
  induction h with
  | done =>
    intro post ts bs hb e
    cases hb with
    | nil => cases e
    | cons h1 h2 =>
    obtain ⟨e1, e2⟩ := List.cons.inj e
    rw [hg] at hn
    unfold readF at hn
    unfold includeLoop
    rw [h1.string, ← e1]
    simp only [ok_bind, hg, hn]
    rfl
  | file hf hgv _ ih =>
    intro post ts bs hb e
    cases hb with
    | nil => cases e
    | cons h1 h2 =>
    obtain ⟨e1, e2⟩ := List.cons.inj e
    obtain ⟨N1, hN1⟩ := hgv
    have hread := readF_fuel_or hN1 n
    unfold readF at hread
    unfold includeLoop
    rw [h1.string, ← e1]
    rcases hread with hread | hread
    · simp only [ok_bind, hf, hread]
      rfl
    · simp only [ok_bind, hf, hread]
      exact ih ho hn h2 e2
  | skip hs hf _ ih =>
    intro post ts bs hb e
    cases hb with
    | nil => cases e
    | cons h1 h2 =>
    obtain ⟨e1, e2⟩ := List.cons.inj e
    unfold includeLoop
    rw [h1.string, ← e1]
    simp only [ok_bind, hf, hs, if_true]
    rw [← hs]
    exact ih ho hn h2 e2
  | missing => cases ho
  | unreadable => cases ho

theorem handleInclude_fuel {fs : Fs} {soft : Bool} {a : Ast} {st st2 : St} {u : List LChar} {vs pre post : List Str}
    {n : Nat} {g s : Str} (ha : a.WF) (hst : st.WF) (he : Expands st.env a.flat u vs)
    (hu : IncludeNames u (pre ++ g :: post)) (h : Includes fs soft pre (st.interned vs) none st2) (hg : fs g = .text s)
    (hn : readF fs n (fs g) g st2 = .fuel) : handleInclude fs (recF fs n) soft a st = .fuel := by
  obtain ⟨N1, hN1⟩ := evals_of_expands fs ha hst he
  obtain ⟨b, g1, g2, _, g4, g5⟩ := hN1.eval
  obtain ⟨bs, ts, k1, k2, k3⟩ := hu.blocks ⟨g2, g4, g5⟩
  unfold handleInclude
  rcases ((recF_le fs (Nat.le_max_left n N1)).eval a st).fuel_or
    (((recF_le fs (Nat.le_max_right n N1)).eval a st).ok g1) with e | e
  · simp only [e]
    rfl
  · simp only [e, ok_bind, k1]
    exact includeLoop_fuel h rfl hg hn k2 k3

/-- If reading the file that is come to never ends, reading from the place never ends. -/
theorem ComesTo.loop {fs : Fs} {p : PState} {st st2 : St} {g s : Str} {n : Nat} (h : ComesTo fs P i p st g st2)
    (hg : fs g = .text s) (hn : readF fs n (fs g) g st2 = .fuel) : ∀ m, processLoop fs (recF fs n) m i p st = .fuel := by
  induction h with
  | line hat ht hl _ ih =>
    intro m
    obtain ⟨N, j, hj, hN⟩ := hl
    cases m with
    | zero => rfl
    | succ m =>
    unfold processLoop
    rw [if_pos (by rw [hat.length]; exact List.length_pos_of_ne_nil ht)]
    rcases parseLine_fuel_or hN n with e | e
    · rw [e]
      rfl
    · rw [e]
      exact ih j hj hg hn m
  | @include_ i t line rest args u soft p st st2 es vs pre post g hr hi hv hrd he hu hf =>
    intro m
    obtain ⟨j, a, e1, e2, rfl, e4⟩ := parseLine_include fs hr.toAtLine (.inl hr.rule) hr.active hi hv hrd
    cases m with
    | zero => rfl
    | succ m =>
    have ht := hr.logical.ne_nil (by
      intro e
      subst e
      have := hi.dropBlanks.2
      simp at this)
    unfold processLoop
    rw [if_pos (by rw [hr.at_.length]; exact List.length_pos_of_ne_nil ht), e4]
    rw [show p.closeRule st = .ok (p, st) by simp [PState.closeRule, hr.rule]]
    show (Res.bind (Res.bind (handleInclude fs (recF fs n) soft a st) _) _) = _
    rw [handleInclude_fuel e2 hr.wf he hu hf hg hn]
    rfl
  | @afterRule i t line rest args u soft p p1 st st1 st2 es vs pre post g hr hact hcmd hclose hwf hi hv hrd he hu hf =>
    intro m
    obtain ⟨j, a, e1, e2, rfl, e4⟩ := parseLine_include fs hr (.inr hcmd) hact hi hv hrd
    cases m with
    | zero => rfl
    | succ m =>
    have ht := hr.logical.ne_nil (by
      intro e
      subst e
      have := hi.dropBlanks.2
      simp at this)
    unfold processLoop
    rw [if_pos (by rw [hr.at_.length]; exact List.length_pos_of_ne_nil ht), e4]
    rw [hclose]
    show (Res.bind (Res.bind (handleInclude fs (recF fs n) soft a st1) _) _) = _
    rw [handleInclude_fuel e2 hwf he hu hf hg hn]
    rfl

theorem FileComesTo.read {fs : Fs} {f g s : Str} {st st2 : St} {n : Nat} (h : FileComesTo fs f st g st2)
    (hg : fs g = .text s) (hn : readF fs n (fs g) g st2 = .fuel) : readF fs (n + 1) (fs f) f st = .fuel := by
  obtain ⟨s, b, hf, hs, h1, h⟩ := h
  obtain ⟨b', h1', h2, h3, h4⟩ := fileBlock_spec (f := (st.names.internFile f).1) hs
  rw [h1] at h1'
  cases h1'
  rw [hf]
  unfold readF readMakefile
  simp only [h1, ok_bind]
  show processStep fs (recF fs n) b _ = _
  unfold processStep
  rw [char_bom h4, error_orElse]
  exact h.loop hg hn _

end Hastur
