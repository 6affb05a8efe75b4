import Verif.Proofs.RuleLine
import Verif.Proofs.RuleDemo
import Verif.Spec.NoTargets

/-!
Lines that begin with a colon.
-/

namespace Hastur
open Nom Res
variable {P : Block} {i : Span} {t : List LChar}

/-- Where the first character of an unquoted text comes from. -/
theorem unquote_head {stop : Char → Bool} {u run : List LChar} (hr : ∀ x ∈ run, x.1 = '\\') {y : LChar}
    (hy : (unquote stop run u).1.head? = some y) : y.1 = '\\' ∨ stop y.1 = true ∨ (run = [] ∧ u.head? = some y) := by
  induction u generalizing run with
  | nil =>
    rw [unquote] at hy
    exact .inl (hr y (List.mem_of_mem_head? hy))
  | cons x u ih =>
    have one : ∀ {w v : List LChar}, (w ++ x :: v).head? = some y → (∀ z ∈ w, z.1 = '\\') →
        y.1 = '\\' ∨ (w = [] ∧ x = y) := by
      intro w v h hw
      cases w with
      | nil => exact .inr ⟨rfl, by simpa using h⟩
      | cons z w =>
        simp only [List.cons_append, List.head?_cons, Option.some.injEq] at h
        subst h
        exact .inl (hw z (by simp))
    rw [unquote] at hy
    split at hy
    · rename_i hx
      rcases ih (run := run ++ [x]) (by
        intro z hz
        rcases List.mem_append.mp hz with h | h
        · exact hr z h
        · rw [List.mem_singleton.mp h]; exact hx) hy with h | h | h
      · exact .inl h
      · exact .inr (.inl h)
      · simp at h
    · split at hy
      · rename_i hs
        split at hy
        · rcases one hy fun z hz => hr z (List.mem_of_mem_take hz) with h | ⟨_, h⟩
          · exact .inl h
          · exact .inr (.inl (h ▸ hs))
        · exact .inl (hr _ (List.mem_of_mem_take (List.mem_of_mem_head? hy)))
      · rcases one hy hr with h | ⟨h1, h2⟩
        · exact .inl h
        · exact .inr (.inr ⟨h1, by simp [h2]⟩)

theorem unquote_colons {stop : Char → Bool} (hs : stop ':' = false) {cs u : List LChar} (hc : ∀ x ∈ cs, x.1 = ':') :
    unquote stop [] (cs ++ u) = (cs ++ (unquote stop [] u).1, (unquote stop [] u).2) := by
  induction cs with
  | nil => rfl
  | cons x cs ih =>
    have hx := hc x (by simp)
    rw [List.cons_append, unquote, if_neg (by rw [hx]; decide), if_neg (by rw [hx, hs]; decide),
      ih fun y hy => hc y (by simp [hy])]
    rfl

theorem NoTargets.chars {line : List LChar} (h : NoTargets line) : ∃ double : Bool, ∃ cs u, line = cs ++ u ∧ (∀ x ∈ cs, x.1 = ':') ∧
    textOf cs = (if double then "::".toList else ":".toList) ∧ (textOf u).head? ≠ some '=' ∧ (textOf u).head? ≠ some ':' := by
  obtain @⟨cs, u, hc, h1, h2⟩ := h
  have hx : ∀ x ∈ cs, x.1 = ':' := by
    intro x hx
    have := mem_textOf.mpr ⟨x, hx, rfl⟩
    rcases hc with e | e <;> rw [e] at this <;> simpa using this
  rcases hc with e | e
  · exact ⟨false, cs, u, rfl, hx, e, h2, h1⟩
  · exact ⟨true, cs, u, rfl, hx, e, h2, h1⟩

/-- The parser of rules ignores such lines. -/
theorem parseTargetLine_noTargets (r : Rec) {b : Block} {line : List LChar} {st : St} (hat : b.span.At b line)
    (hnl : Free '\n' line) (hsl : trailingSlashes (textOf line) % 2 = 0) (hcm : Free '#' line) (h : NoTargets line) :
    ∃ rest', parseTargetLine r b.span st = .ok (.done rest' .noAction, st) := by
  obtain ⟨rest, L2, m1, _, m3, _⟩ := makefileLine_one (strip := false) hat (grabSpec_eof hcm hnl) hsl
  obtain ⟨double, cs, u, rfl, hc, hcs, hu, hu'⟩ := h.chars
  have hat2 : L2.span.At L2 (cs ++ u) := m3.at
  have hq := unquote_colons (stop := fun c => c == ';' || c == '#') (u := u) (by decide) hc
  have hsplit : ∃ b postSemi, Part L2 (cs ++ (unquote (fun c => c == ';' || c == '#') [] u).1) b ∧ (do
        match ← takeUntilUnquote L2.span (fun c => c == ';' || c == '#') with
        | (pre, some (stopChar, post)) => do
          let c ← Nom.firstChar stopChar
          if c = some '#' then return (pre, none)
          else do
            let b ← post.toNewBlock
            return (pre, some b)
        | (pre, none) => return (pre, none) : Res (Block × Option Block)) = .ok (b, postSemi) := by
    obtain ⟨k1, k2⟩ := takeUntilUnquote_spec (fun c => c == ';' || c == '#') (by decide) (by decide) hat2
    rw [hq] at k1 k2
    cases ho : (unquote (fun c => c == ';' || c == '#') [] u).2 with
    | none =>
      obtain ⟨b, e1, e2⟩ := k2 ho
      exact ⟨b, none, e2, by rw [e1]; rfl⟩
    | some x =>
      obtain ⟨x, v⟩ := x
      obtain ⟨b, sc, post, e1, e2, e3, e4⟩ := k1 x v ho
      obtain ⟨pb, f1, f2⟩ := e4.part
      rw [e1]
      simp only [ok_bind, Nom.firstChar_at e3]
      by_cases hx : (textOf [x]).head? = some '#'
      · exact ⟨b, none, e2, by rw [if_pos hx]; rfl⟩
      · exact ⟨b, some pb, e2, by rw [if_neg hx, f1]; rfl⟩
  obtain ⟨b', postSemi, e1, e2⟩ := hsplit
  have hhead : ∀ c, c ≠ '\\' → c ≠ ';' → c ≠ '#' → (textOf u).head? ≠ some c →
      (textOf (unquote (fun c => c == ';' || c == '#') [] u).1).head? ≠ some c := by
    intro c n1 n2 n3 n4 hh
    rw [textOf, List.head?_map, Option.map_eq_some_iff] at hh
    obtain ⟨y, hy, rfl⟩ := hh
    rcases unquote_head (by simp) hy with h | h | ⟨_, h⟩
    · exact n1 h
    · simp only [Bool.or_eq_true, beq_iff_eq] at h
      exact h.elim n2 n3
    · rw [textOf, List.head?_map, h] at n4
      exact n4 rfl
  obtain ⟨r', m, g1, _, _⟩ := nextMword_colon_at (gap := []) (by simpa using e1.at) (by intro x hx; cases hx) hcs
    (hhead '=' (by decide) (by decide) (by decide) hu) (hhead ':' (by decide) (by decide) (by decide) hu')
  refine ⟨rest, ?_⟩
  unfold parseTargetLine
  simp only [m1, ok_bind]
  refine Res.bind_eq_ok.mpr ⟨_, e2, ?_⟩
  simp only [g1, ok_bind]
  cases double <;> rfl

theorem NoTargets.head {line : List LChar} (h : NoTargets line) : (textOf line).head? = some ':' := by
  obtain @⟨cs, u, hc, _, _⟩ := h
  rw [textOf_append]
  rcases hc with e | e <;> rw [e] <;> rfl

private theorem not_prefix_of_head {s w : Str} {c : Char} (h : s.head? = some ':') (hw : w.head? = some c) (hc : c ≠ ':') :
    ¬ w <+: s.map lower := by
  rintro ⟨v, hv⟩
  cases s with
  | nil => cases h
  | cons d s =>
    cases w with
    | nil => cases hw
    | cons e w =>
      simp only [List.head?_cons, Option.some.injEq] at h hw
      subst h hw
      simp only [List.map_cons, List.cons_append] at hv
      injection hv with h1 _
      exact hc h1

theorem NoTargets.not_condLike {line : List LChar} (h : NoTargets line) : ¬ CondLike line := by
  intro hc
  have hh := h.head
  cases hc with
  | word hw hp =>
    simp only [List.mem_cons, List.not_mem_nil, or_false] at hw
    rcases hw with rfl | rfl | rfl | rfl <;> exact not_prefix_of_head hh rfl (by decide) hp
  | @eq a b e ha _ =>
    have hp : (textOf a).map lower <+: (textOf line).map lower := by
      rw [e, textOf_append, List.map_append]
      exact List.prefix_append _ _
    simp only [List.mem_cons, List.not_mem_nil, or_false] at ha
    rcases ha with ha | ha <;> rw [ha] at hp <;> exact not_prefix_of_head hh rfl (by decide) hp

theorem NoTargets.not_directiveLike {line : List LChar} (h : NoTargets line) : ¬ DirectiveLike line := by
  rintro ⟨w, hw, hp⟩
  simp only [directiveWords, List.mem_cons, List.not_mem_nil, or_false] at hw
  rcases hw with rfl | rfl | rfl | rfl | rfl | rfl | rfl | rfl <;> exact not_prefix_of_head h.head rfl (by decide) hp

theorem NoTargets.not_varLike {line : List LChar} (h : NoTargets line) : ¬ VarLike line := by
  intro hv
  have hh := h.head
  cases hv with
  | @assign _ name value ty ha =>
    obtain ⟨double, cs, u, e, _, hcs, hu, hu'⟩ := h.chars
    cases ha with
    | mk _ gap op gap' _ _ hn hg hop =>
      have h1 : name = [] := by
        cases name with
        | nil => rfl
        | cons x name =>
          have := (hn x (by simp)).2.1
          rw [List.cons_append, textOf_cons, List.head?_cons, Option.some.injEq] at hh
          exact absurd hh this
      subst h1
      have h2 : gap = [] := by
        cases gap with
        | nil => rfl
        | cons x gap =>
          rw [List.nil_append, List.cons_append, textOf_cons, List.head?_cons, Option.some.injEq] at hh
          have := hg x (by simp)
          rw [hh] at this
          exact absurd this (by decide)
      subst h2
      have e' := congrArg textOf e
      simp only [List.nil_append, textOf_append, hcs] at e'
      generalize textOf op = o at hop e'
      generalize textOf u = v at hu hu' e'
      clear hh h e hcs
      cases hop <;> cases double <;> simp at e' <;> cases v <;> simp [eq_comm] at e' hu hu' <;> first | exact hu e'.1 | exact hu' e'.1 | skip
  | define hp => exact not_prefix_of_head hh rfl (by decide) hp
  | undefine hp => exact not_prefix_of_head hh rfl (by decide) hp
  | @modifier kw gap l hk _ _ _ =>
    have hp : (textOf kw).map lower <+: (textOf (kw ++ (gap ++ l))).map lower := by
      rw [textOf_append, List.map_append]
      exact List.prefix_append _ _
    simp only [List.mem_cons, List.not_mem_nil, or_false] at hk
    rcases hk with hk | hk | hk <;> rw [hk] at hp <;> exact not_prefix_of_head hh rfl (by decide) hp

theorem NoTargets.ne_nil {line : List LChar} (h : NoTargets line) : line ≠ [] := by
  rintro rfl
  cases h.head

end Hastur
