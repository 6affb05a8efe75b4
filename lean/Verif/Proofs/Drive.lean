import Verif.Spec.Drive
import Verif.Proofs.RuleWords
/-
Where `find_non_drivespec_colon` cuts a text (C65).
-/
namespace Hastur

open Res Span

variable {P : Block} {i : Span} {t : List LChar}

theorem Free.of_colon {u : List LChar} (h : ¬ ∃ x ∈ u, x.1 = ':') : ∀ y ∈ u, ((· == ':') y.1 : Bool) = false :=
  fun y hy => by simpa using fun e => h ⟨y, hy, e⟩

/-- The first colon of a text. -/
theorem colon_cases (t : List LChar) :
    (∀ y ∈ t, ((· == ':') y.1 : Bool) = false) ∨
    ∃ u l v, t = u ++ (':', l) :: v ∧ ∀ y ∈ u, ((· == ':') y.1 : Bool) = false := by
  induction t with
  | nil => exact .inl (by simp)
  | cons x t ih =>
    obtain ⟨c, l⟩ := x
    by_cases hc : c = ':'
    · subst hc
      exact .inr ⟨[], l, t, rfl, by simp⟩
    · rcases ih with h | ⟨u, l', v, rfl, h⟩
      · exact .inl fun y hy => by
          rcases List.mem_cons.mp hy with rfl | hy
          · simpa using hc
          · exact h y hy
      · exact .inr ⟨(c, l) :: u, l', v, rfl, fun y hy => by
          rcases List.mem_cons.mp hy with rfl | hy
          · simpa using hc
          · exact h y hy⟩

/-- Drive specifications as the code sees them. -/
def CodeDrive (u v : List LChar) : Prop := SlashNext v ∧ ∃ x, u = [x] ∧ isAlphabetic x.1 = true

theorem isDrivespec_at {p : Block} {s : Span} {u v : List LChar} (hp : Part P u p) (hs : s.At P v)
    (hw : SlashNext v → ∀ x ∈ u.drop (u.length - 2), isWhitespace x.1 = false ∧ x.1 ≠ '(') :
    (CodeDrive u v → isDrivespec p s = .ok true) ∧ (¬ CodeDrive u v → isDrivespec p s = .ok false) := by
  have hlen : p.len = u.length := by
    have := hp.at.length
    exact this
  unfold isDrivespec
  rw [Nom.firstChar_at hs]
  simp only [ok_bind]
  cases v with
  | nil =>
    constructor
    · rintro ⟨⟨_, _, h, _⟩, _⟩; cases h
    · intro _; rfl
  | cons x v =>
    simp only [textOf, List.map_cons, List.head?_cons]
    by_cases hx : x.1 ≠ '/' ∧ x.1 ≠ '\\'
    · rw [if_pos hx]
      constructor
      · rintro ⟨⟨_, _, h, h'⟩, _⟩; cases h
        rcases h' with h' | h'
        · exact absurd h' hx.1
        · exact absurd h' hx.2
      · intro _; rfl
    · have hsl : SlashNext (x :: v) := ⟨x, v, rfl, by
        by_cases h1 : x.1 = '/'
        · exact .inl h1
        · exact .inr (Classical.not_not.mp fun h2 => hx ⟨h1, h2⟩)⟩
      rw [if_neg hx, hlen]
      match u, hp, hw with
      | [], _, _ =>
        constructor
        · rintro ⟨_, _, h, _⟩; cases h
        · intro _; rfl
      | [y], hp, _ =>
        simp only [List.length_singleton, Nat.one_ne_zero, if_false, if_true]
        rw [Nom.firstChar_at hp.at]
        simp only [ok_bind, textOf, List.map_cons, List.map_nil, List.head?_cons, runwrap]
        constructor
        · rintro ⟨_, z, h, h'⟩; cases h; rw [h']; rfl
        · intro h
          have : isAlphabetic y.1 = false := by
            cases h' : isAlphabetic y.1 with
            | false => rfl
            | true => exact absurd ⟨hsl, y, rfl, h'⟩ h
          rw [this]; rfl
      | y :: z :: u, hp, hw =>
        have h2 : (y :: z :: u).length ≠ 0 := by simp
        have h3 : (y :: z :: u).length ≠ 1 := by simp
        rw [if_neg h2, if_neg h3]
        have h4 : usub (y :: z :: u).length 2 = .ok u.length := by
          unfold usub; rw [if_pos (by simp)]; simp
        obtain ⟨r, e1, e2⟩ := hp.at.sliceFrom (n := u.length) (by simp only [List.length_cons]; omega)
        rw [h4]
        simp only [ok_bind, e1]
        have hl : ((y :: z :: u).drop u.length).length = 2 := by
          rw [List.length_drop]; simp only [List.length_cons]; omega
        have e3 := e2.length
        rw [hl] at e3
        have e4 := e2.chars
        have hw' := hw hsl
        rw [show (y :: z :: u).length - 2 = u.length by simp] at hw'
        generalize (y :: z :: u).drop u.length = d at hl e4 hw'
        match d, hl with
        | [a, b], _ =>
          have hb := hw' b (by simp)
          simp only [rassert, e3, beq_self_eq_true, if_true, ok_bind, e4, textOf, List.map_cons]
          constructor
          · rintro ⟨_, _, h, _⟩; cases h
          · intro _
            simp [hb.1, hb.2]

theorem colon_le {u v a b : List LChar} {l : Location} (hu : ∀ y ∈ u, ((· == ':') y.1 : Bool) = false)
    (h : ColonAt (u ++ (':', l) :: v) a b) : (a = u ∧ b = v) ∨ ∃ w, a = u ++ (':', l) :: w ∧ ColonAt v w b := by
  obtain ⟨l', h⟩ := h
  rcases List.append_eq_append_iff.mp h with ⟨d, rfl, h2⟩ | ⟨d, rfl, h2⟩
  · cases d with
    | nil => simp at h2; exact .inl ⟨by simp, h2.2.symm⟩
    | cons x d =>
      simp only [List.cons_append, List.cons.injEq] at h2
      exact .inr ⟨d, by rw [← h2.1], l', h2.2⟩
  · cases d with
    | nil => simp at h2; exact .inl ⟨by simp, h2.2⟩
    | cons x d =>
      simp only [List.cons_append, List.cons.injEq] at h2
      have := hu x (by simp)
      rw [← h2.1] at this
      cases this

theorem no_colon (hu : ∀ y ∈ t, ((· == ':') y.1 : Bool) = false) {a b : List LChar} : ¬ ColonAt t a b := by
  rintro ⟨l, rfl⟩
  have := hu (':', l) (by simp)
  cases this

/-- The result for texts where no blank or parenthesis stands close to a colon before a slash. -/
theorem findColon_first (h : i.At P t) (hP : P.Solid) (hq : UnquotedColons t)
    (hw : ∀ pre post, ColonAt t pre post → SlashNext post →
      ∀ x ∈ pre.drop (pre.length - 2), isWhitespace x.1 = false ∧ x.1 ≠ '(') :
    (∃ pre post b s, FirstColon t pre post ∧ findNonDrivespecColon i = .ok (b, some s) ∧ Buf pre b ∧ s.At P post) ∨
    ((∀ a b, ColonAt t a b → DriveColon a b) ∧ ∃ b, findNonDrivespecColon i = .ok (b, none) ∧ Buf t b) := by
  unfold findNonDrivespecColon
  have hlen := h.length
  rcases colon_cases t with hn | ⟨u, l, v, rfl, hu⟩
  · refine .inr ⟨fun a b hc => absurd hc (no_colon hn), ?_⟩
    obtain ⟨p, e1, e2⟩ := (takeUntilUnquote_spec (· == ':') (by decide) (by decide) h).2 (by rw [unquote_none _ hn])
    rw [unquote_none _ hn] at e2
    obtain ⟨q, f1, f2, _⟩ := Buf.empty.pushAll e2.buf.at e2.solid
    refine ⟨q, ?_, by simpa using f2⟩
    unfold colonLoop
    simp only [e1, ok_bind, f1]
    rfl
  · have e0 := unquote_first (· == ':') (v := v) (x := (':', l)) hu rfl (by simp) [] (fun _ => rfl) (hq u v ⟨l, rfl⟩)
    obtain ⟨p, sc, post, e1, e2, e3, e4⟩ := (takeUntilUnquote_spec (· == ':') (by decide) (by decide) h).1 (':', l) v
      (by rw [e0])
    rw [e0] at e2
    obtain ⟨q, f1, f2, _⟩ := Buf.empty.pushAll e2.buf.at e2.solid
    have hd := isDrivespec_at e2 e4 (hw u v ⟨l, rfl⟩)
    simp only [List.nil_append] at hd f2
    by_cases hc : CodeDrive u v
    · obtain ⟨hs, x, rfl, hx⟩ := hc
      have hdr : DriveColon [x] v := ⟨hs, [], x, rfl, hx, by simp⟩
      have hd := hd.1 ⟨hs, x, rfl, hx⟩
      obtain ⟨q', g1, g2, _⟩ := f2.pushAll e3 hP
      simp only [List.length_append, List.length_cons, List.length_nil] at hlen
      rw [show i.length + 1 = (v.length + 2) + 1 by omega]
      unfold colonLoop
      simp only [e1, ok_bind, f1, hd, g1, if_true]
      unfold colonLoop
      rcases colon_cases v with hn | ⟨u', l', v', rfl, hu'⟩
      · refine .inr ⟨fun a b hc => ?_, ?_⟩
        · rcases colon_le hu hc with ⟨rfl, rfl⟩ | ⟨w, _, hw⟩
          · exact hdr
          · exact absurd hw (no_colon hn)
        · obtain ⟨p', e1', e2'⟩ := (takeUntilUnquote_spec (· == ':') (by decide) (by decide) e4).2 (by rw [unquote_none _ hn])
          rw [unquote_none _ hn] at e2'
          obtain ⟨q2, k1, k2, _⟩ := g2.pushAll e2'.buf.at e2'.solid
          refine ⟨q2, ?_, by simpa using k2⟩
          simp only [e1', ok_bind, k1]
          rfl
      · have hca : ColonAt ([x] ++ (':', l) :: (u' ++ (':', l') :: v')) ([x] ++ (':', l) :: u') v' := ⟨l', by simp⟩
        have hne : ∃ y w, u' = y :: w ∧ (y.1 = '/' ∨ y.1 = '\\') := by
          obtain ⟨y, w, h1, h2⟩ := hs
          cases u' with
          | nil =>
            simp only [List.nil_append, List.cons.injEq] at h1
            rw [← h1.1] at h2
            rcases h2 with h2 | h2 <;> cases h2
          | cons z u' =>
            simp only [List.cons_append, List.cons.injEq] at h1
            exact ⟨z, u', rfl, by rw [h1.1]; exact h2⟩
        obtain ⟨y, w, rfl, hy⟩ := hne
        have hya : isAlphabetic y.1 = false := by rcases hy with hy | hy <;> rw [hy] <;> decide
        have hll : ([x] ++ (':', l) :: (y :: w)).getLast? = (y :: w).getLast? := by
          simp only [List.cons_append, List.nil_append, List.getLast?_cons_cons]
        have hq' := hq _ _ hca
        rw [hll] at hq'
        have e0' := unquote_first (· == ':') (v := v') (x := (':', l')) hu' rfl (by simp) [] (fun _ => rfl) hq'
        obtain ⟨p', sc', post', e1', e2', e3', e4'⟩ :=
          (takeUntilUnquote_spec (· == ':') (by decide) (by decide) e4).1 (':', l') v' (by rw [e0'])
        rw [e0'] at e2'
        simp only [List.nil_append] at e2'
        obtain ⟨q2, k1, k2, _⟩ := g2.pushAll e2'.buf.at e2'.solid
        have hdw : ∀ z ∈ (y :: w).drop ((y :: w).length - 2),
            z ∈ ([x] ++ (':', l) :: (y :: w)).drop (([x] ++ (':', l) :: (y :: w)).length - 2) := by
          intro z hz
          rw [show ([x] ++ (':', l) :: (y :: w)).length - 2 = w.length + 1 by simp]
          cases w with
          | nil => simp at hz ⊢; right; exact hz
          | cons w1 w =>
            have : ([x] ++ (':', l) :: (y :: w1 :: w)) = [x, (':', l)] ++ (y :: w1 :: w) := rfl
            rw [this, List.drop_append, List.mem_append]
            right
            simpa using hz
        have hd' := (isDrivespec_at e2' e4' fun hs z hz => hw _ _ hca hs z (hdw z hz)).2 (by
          rintro ⟨_, z, hz, hz'⟩
          cases hz
          rw [hya] at hz'
          cases hz')
        refine .inl ⟨_, v', q2, post', ⟨hca, ?_, ?_⟩, ?_, by simpa using k2, e4'⟩
        · rintro ⟨hs', a, z, h1, h2, h3⟩
          have ha : ([x] ++ (':', l) :: (y :: w)).getLast? = some z := by rw [h1]; simp
          cases w with
          | nil =>
            rw [hll] at ha
            obtain rfl : y = z := by simpa using ha
            rw [hya] at h2; cases h2
          | cons w1 w =>
            have hmem : ∀ k, a.getLast? = some k → k ∈ ([x] ++ (':', l) :: (y :: w1 :: w)).drop
                (([x] ++ (':', l) :: (y :: w1 :: w)).length - 2) := by
              intro k hk
              rw [h1]
              obtain ⟨a', rfl⟩ : ∃ a', a = a' ++ [k] := by
                obtain ⟨a', ha'⟩ := List.getLast?_eq_some_iff.mp hk
                exact ⟨a', ha'⟩
              simp
            cases hk : a.getLast? with
            | none =>
              rw [List.getLast?_eq_none_iff] at hk
              subst hk
              simp at h1
            | some k =>
              have := hw _ _ hca hs' k (hmem k hk)
              rcases h3 k hk with h | h
              · rw [this.1] at h; cases h
              · exact this.2 h
        · intro a b hab hl
          rcases colon_le hu hab with ⟨rfl, rfl⟩ | ⟨w', rfl, hw'⟩
          · exact hdr
          · rcases colon_le hu' hw' with ⟨rfl, rfl⟩ | ⟨w2, rfl, _⟩
            · simp at hl
            · simp at hl; omega
        · simp only [e1', ok_bind, k1, hd']
          rfl
    · refine .inl ⟨u, v, q, post, ⟨⟨l, rfl⟩, ?_, ?_⟩, ?_, f2, e4⟩
      · rintro ⟨hs, a, z, rfl, h2, h3⟩
        cases hk : a.getLast? with
        | none =>
          rw [List.getLast?_eq_none_iff] at hk
          subst hk
          exact hc ⟨hs, z, rfl, h2⟩
        | some k =>
          obtain ⟨a', rfl⟩ := List.getLast?_eq_some_iff.mp hk
          have := hw _ v ⟨l, rfl⟩ hs k (by simp)
          rcases h3 k hk with h | h
          · rw [this.1] at h; cases h
          · exact this.2 h
      · intro a b hab hl
        rcases colon_le hu hab with ⟨rfl, rfl⟩ | ⟨w', rfl, hw'⟩
        · omega
        · simp at hl; omega
      · unfold colonLoop
        simp only [e1, ok_bind, f1, hd.2 hc]
        rfl

theorem FirstColon.unique {a b a' b' : List LChar} (h : FirstColon t a b) (h' : FirstColon t a' b') : a = a' ∧ b = b' := by
  have hl : a.length = a'.length := by
    rcases Nat.lt_trichotomy a.length a'.length with hl | hl | hl
    · exact absurd (h'.2.2 _ _ h.1 hl) h.2.1
    · exact hl
    · exact absurd (h.2.2 _ _ h'.1 hl) h'.2.1
  obtain ⟨l, h1⟩ := h.1
  obtain ⟨l', h2⟩ := h'.1
  rw [h1] at h2
  have := List.append_inj h2 hl
  exact ⟨this.1, (List.cons.inj this.2).2⟩

end Hastur
