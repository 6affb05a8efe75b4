import Verif.Proofs.Dispatch
import Verif.Spec.RuleLine
/-
Lemmas: lines that are not variable definitions, and not directives.
-/
namespace Hastur

open Res

variable {P : Block} {t : List LChar} {i : Span}

/-- No operator is found in a line that is not an assignment. -/
theorem parseAssignmentOperator_none (h : i.At P t) (hn : ∀ name ty value, ¬ AssignText t name ty value) :
    parseAssignmentOperator i = .ok (.err (.error .code)) := by
  obtain ⟨r1, q1, e1, h1, h1'⟩ := Nom.takeTill_at h nameStop
  obtain ⟨r2, q2, e2, h2, h2'⟩ := whitespace_at h1
  have hsplit := List.takeWhile_append_dropWhile (p := fun x : LChar => !nameStop x.1) (l := t)
  generalize hna : t.takeWhile (fun x => !nameStop x.1) = na at h1' hsplit
  generalize hr : t.dropWhile (fun x => !nameStop x.1) = u at h1 h2 h2' hsplit
  have hname : ∀ x ∈ na, NameChar x.1 := by
    intro x hx
    rw [← hna] at hx
    have := List.all_takeWhile (p := fun x : LChar => !nameStop x.1) (l := t)
    rw [List.all_eq_true] at this
    exact nameStop_iff.mp (by simpa using this x hx)
  have hsplit2 := List.takeWhile_append_dropWhile (p := lblank) (l := u)
  have hblank : Blanks (u.takeWhile lblank) := by
    intro x hx
    have := List.all_takeWhile (p := lblank) (l := u)
    rw [List.all_eq_true] at this
    exact lblank_iff.mp (this x hx)
  have key : ∀ w ty, OpText ty w → AsciiS w → Nom.tag w r2 = .ok (.err (.error .code)) := by
    intro w ty how hw
    refine (Nom.tag_at h2 hw).2 fun hp => ?_
    generalize u.dropWhile lblank = v at h2 hp hsplit2
    obtain ⟨tl, htl⟩ := hp
    have hw' : textOf (v.take w.length) = w := by rw [textOf_take, ← htl]; simp
    have hv : v = v.take w.length ++ v.drop w.length := (List.take_append_drop _ _).symm
    generalize v.take w.length = op at hw' hv
    generalize v.drop w.length = b at hv
    subst hv
    have e3 := List.takeWhile_append_dropWhile (p := lblank) (l := b)
    refine hn na ty (b.dropWhile lblank) ?_
    rw [← hsplit, ← hsplit2]
    have e4 : op ++ b = op ++ (b.takeWhile lblank ++ b.dropWhile lblank) := by rw [e3]
    rw [e4]
    refine .mk na (u.takeWhile lblank) op _ _ ty hname hblank (by rw [hw']; exact how) ?_ ?_
    · intro x hx
      have := List.all_takeWhile (p := lblank) (l := b)
      rw [List.all_eq_true] at this
      exact lblank_iff.mp (this x hx)
    · intro x hx hb
      have := List.head?_dropWhile_not lblank b
      rw [hx] at this
      exact absurd (lblank_iff.mpr hb) (by simpa using this)
  unfold parseAssignmentOperator assignOperator
  simp only [e1, done_andThen, e2]
  rw [key "=".toList _ .recursive (by unfold AsciiS; decide), key "::=".toList _ .posix (by unfold AsciiS; decide), key ":=".toList _ .simple (by unfold AsciiS; decide),
    key "?=".toList _ .conditional (by unfold AsciiS; decide), key "!=".toList _ .shell (by unfold AsciiS; decide), key "+=".toList _ .append (by unfold AsciiS; decide)]
  rfl

theorem parseVariableAssignment_none (r : Rec) (mods : Modifiers) (st : St) (h : i.At P t)
    (hn : ∀ name ty value, ¬ AssignText t name ty value) :
    parseVariableAssignment r mods i st = .ok (.err (.error .code), st) := by
  unfold parseVariableAssignment splitAssignment
  rw [parseAssignmentOperator_none h hn]
  rfl

theorem dropBlank_head (t : List LChar) : ∀ x, (t.dropWhile lblank).head? = some x → ¬ (x.1 = ' ' ∨ x.1 = '\t') := by
  intro x hx hb
  have := List.head?_dropWhile_not lblank t
  rw [hx] at this
  exact absurd (lblank_iff.mpr hb) (by simpa using this)

theorem takeWhile_blanks (t : List LChar) : Blanks (t.takeWhile lblank) := by
  intro x hx
  have := List.all_takeWhile (p := lblank) (l := t)
  rw [List.all_eq_true] at this
  exact lblank_iff.mp (this x hx)

/-- The part of a line after a modifier. -/
theorem modifier_split {w : Str} (hp : w <+: (textOf t).map lower)
    (hw : w ∈ ["export".toList, "override".toList, "private".toList]) (hn : ¬ VarLike t) :
    ¬ VarLike ((t.drop w.length).dropWhile lblank) := by
  intro hv
  apply hn
  have hl : w.length ≤ t.length := by
    have := hp.length_le
    simpa [textOf] using this
  have e1 := List.takeWhile_append_dropWhile (p := lblank) (l := t.drop w.length)
  have e2 : t = t.take w.length ++ ((t.drop w.length).takeWhile lblank ++ (t.drop w.length).dropWhile lblank) := by
    rw [e1, List.take_append_drop]
  rw [e2]
  refine .modifier ?_ (takeWhile_blanks _) (dropBlank_head _) hv
  have : (textOf (t.take w.length)).map lower = w := by
    rw [textOf_take, List.map_take]
    exact (List.prefix_iff_eq_take.mp hp).symm
  rw [this]
  exact hw

/-- A line that is not a variable definition is not taken for one. -/
theorem modifierLoop_none (r : Rec) (n : Nat) (mods : Modifiers) (st : St) (h : i.At P t) (hlen : t.length < n)
    (hn : ¬ VarLike t) : ∃ k, modifierLoop r n mods i st = .ok (.err (.error k), st) := by
  induction n generalizing i t mods with
  | zero => omega
  | succ n ih =>
    have ha : ∀ name ty value, ¬ AssignText t name ty value := fun _ _ _ ha => hn (.assign ha)
    unfold modifierLoop
    simp only [parseVariableAssignment_none r mods st h ha, ok_bind]
    unfold modifierKeyword
    have hd := (Nom.tagNoCase_at h (w := "define".toList) (by unfold AsciiS; decide)).2 (fun hp => hn (.define hp))
    have hu := (Nom.tagNoCase_at h (w := "undefine".toList) (by unfold AsciiS; decide)).2 (fun hp => hn (.undefine hp))
    rw [hd, hu]
    simp only [err_mapP, error_orElse]
    have step : ∀ (w : Str), w ∈ ["export".toList, "override".toList, "private".toList] → AsciiS w → w.map lower = w →
        (Nom.tagNoCase w i = .ok (.err (.error .code))) ∨
        (∃ r1 q r2 w2, Nom.tagNoCase w i = .ok (.done r1 q) ∧ whitespace r1 = .ok (.done r2 w2) ∧
          ∀ mods, ∃ k, modifierLoop r n mods r2 st = .ok (.err (.error k), st)) := by
      intro w hw hasc hlow
      by_cases hp : w.map lower <+: (textOf t).map lower
      · right
        obtain ⟨r1, q, e1, g1, _⟩ := (Nom.tagNoCase_at h hasc).1 hp
        obtain ⟨r2, w2, e2, g2, _⟩ := whitespace_at g1
        refine ⟨r1, q, r2, w2, e1, e2, fun mods => ih mods g2 ?_ ?_⟩
        · have h1 := (List.dropWhile_suffix lblank (l := t.drop w.length)).length_le
          have h2 : 0 < w.length := by
            rcases List.mem_cons.mp hw with rfl | hw
            · decide
            rcases List.mem_cons.mp hw with rfl | hw
            · decide
            rcases List.mem_cons.mp hw with rfl | hw
            · decide
            cases hw
          have h3 := hp.length_le
          simp [textOf] at h1 h3
          omega
        · rw [hlow] at hp
          exact modifier_split hp hw hn
      · exact .inl ((Nom.tagNoCase_at h hasc).2 hp)
    rcases step "export".toList (by simp) (by unfold AsciiS; decide) (by decide) with e | ⟨r1, q, r2, w2, e, e2, hk⟩
    · rw [e]
      rcases step "override".toList (by simp) (by unfold AsciiS; decide) (by decide) with e | ⟨r1, q, r2, w2, e, e2, hk⟩
      · rw [e]
        rcases step "private".toList (by simp) (by unfold AsciiS; decide) (by decide) with e | ⟨r1, q, r2, w2, e, e2, hk⟩
        · rw [e]
          exact ⟨_, rfl⟩
        · rw [e]
          simp only [err_mapP, error_orElse, done_mapP, done_orElse, done_andThen, e2]
          exact hk _
      · rw [e]
        simp only [err_mapP, error_orElse, done_mapP, done_orElse, done_andThen, e2]
        exact hk _
    · rw [e]
      simp only [done_mapP, done_orElse, done_andThen, e2]
      exact hk _

theorem parseVariableLine_none (r : Rec) (st : St) (h : i.At P t) (hn : ¬ VarLike (t.dropWhile lblank)) :
    ∃ k, parseVariableLine r i st = .ok (.err (.error k), st) := by
  obtain ⟨r1, w1, e1, h1, _⟩ := whitespace_at h
  unfold parseVariableLine
  simp only [e1, ok_bind]
  by_cases h0 : r1.length = 0
  · rw [if_pos h0]; exact ⟨_, rfl⟩
  · rw [if_neg h0]
    exact modifierLoop_none r _ _ st h1 (by rw [h1.length]; omega) hn

theorem parseDirectiveLine_none (h : i.At P t) (hn : ¬ DirectiveLike t) :
    parseDirectiveLine i = .ok (.err (.error .code)) := by
  have key : ∀ w ∈ directiveWords, Nom.tagNoCase w i = .ok (.err (.error .code)) := by
    intro w hw
    have h1 : AsciiS w ∧ w.map lower = w := by
      revert w
      unfold AsciiS directiveWords
      decide
    refine (Nom.tagNoCase_at h h1.1).2 fun hp => hn ⟨w, hw, ?_⟩
    rwa [h1.2] at hp
  unfold parseDirectiveLine
  simp only [key _ (show "export".toList ∈ directiveWords by unfold directiveWords; decide),
    key _ (show "unexport".toList ∈ directiveWords by unfold directiveWords; decide),
    key _ (show "vpath".toList ∈ directiveWords by unfold directiveWords; decide),
    key _ (show "include".toList ∈ directiveWords by unfold directiveWords; decide),
    key _ (show "sinclude".toList ∈ directiveWords by unfold directiveWords; decide),
    key _ (show "-include".toList ∈ directiveWords by unfold directiveWords; decide),
    key _ (show "load".toList ∈ directiveWords by unfold directiveWords; decide),
    key _ (show "-load".toList ∈ directiveWords by unfold directiveWords; decide)]
  rfl

end Hastur
