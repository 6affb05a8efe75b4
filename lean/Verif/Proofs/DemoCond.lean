import Verif.Proofs.Demo
import Verif.Proofs.Conditional
/-
Lemmas for concrete cases with conditionals: texts given as strings.
-/
namespace Hastur

theorem noTopComma_of {t : List LChar} (h1 : Free '(' t) (h2 : Free ')' t) (h3 : Free ',' t) : NoTopComma t := by
  induction t with
  | nil => exact .nil
  | cons x t ih =>
    exact .char (h1 x (by simp)) (h2 x (by simp)) (h3 x (by simp)) (ih (fun y hy => h1 y (by simp [hy]))
      (fun y hy => h2 y (by simp [hy])) (fun y hy => h3 y (by simp [hy])))

theorem balanced_of {t : List LChar} (h1 : Free '(' t) (h2 : Free ')' t) : Balanced t := by
  induction t with
  | nil => exact .nil
  | cons x t ih =>
    exact .char (h1 x (by simp)) (h2 x (by simp)) (ih (fun y hy => h1 y (by simp [hy])) (fun y hy => h2 y (by simp [hy])))

/-- A test of two plain words, given as strings. -/
theorem condText_test {l : Location} {kw a b : Str} {inverted : Bool}
    (hk : kw.map lower = (if inverted then "ifneq".toList else "ifeq".toList))
    (ha : ∀ c ∈ a, c ≠ '(' ∧ c ≠ ')' ∧ c ≠ ',' ∧ c ≠ '$') (hb : ∀ c ∈ b, c ≠ '(' ∧ c ≠ ')' ∧ c ≠ ' ' ∧ c ≠ '\t' ∧ c ≠ '$') :
    ∃ la lb, CondText (locate l (kw ++ (' ' :: '(' :: (a ++ ',' :: (b ++ [')'])))))
      (.test inverted (Expr.text (locate la a)) (Expr.text (locate lb b))) := by
  refine ⟨((l.after kw).after [' ']).after ['('], ((((l.after kw).after [' ']).after ['(']).after a).after [','], ?_⟩
  have e : kw ++ (' ' :: '(' :: (a ++ ',' :: (b ++ [')']))) = kw ++ ([' '] ++ (['('] ++ (a ++ ([','] ++ (b ++ [')']))))) := by
    simp
  rw [e]
  simp only [locate_append]
  have fa : ∀ c, (∀ d ∈ a, d ≠ c) → ∀ k, Free c (locate k a) := fun c h k => free_locate fun hc => h c hc rfl
  have fb : ∀ c, (∀ d ∈ b, d ≠ c) → ∀ k, Free c (locate k b) := fun c h k => free_locate fun hc => h c hc rfl
  refine .test (by rw [textOf_locate]; exact hk) (by intro x hx; cases List.mem_singleton.mp hx; exact .inl rfl)
    (.paren (gap := []) (tail := []) (noTopComma_of (fa _ (fun d hd => (ha d hd).1) _) (fa _ (fun d hd => (ha d hd).2.1) _)
      (fa _ (fun d hd => (ha d hd).2.2.1) _)) (by intro x hx; cases hx) ?_
      (balanced_of (fb _ (fun d hd => (hb d hd).1) _) (fb _ (fun d hd => (hb d hd).2.1) _)))
    (reads_text (fa _ (fun d hd => (ha d hd).2.2.2) _)) (reads_text (fb _ (fun d hd => (hb d hd).2.2.2.2) _))
  cases b with
  | nil =>
    intro x hx
    simp only [locate, List.nil_append, List.head?_cons, Option.some.injEq] at hx
    subst hx
    simp
  | cons c b =>
    intro x hx
    simp only [locate, List.cons_append, List.head?_cons, Option.some.injEq] at hx
    subst hx
    have := hb c (by simp)
    simp [this.2.2.1, this.2.2.2.1]

theorem condText_else {l : Location} : CondText (locate l "else".toList) .else_ := by
  have := CondText.else_ (kw := locate l "else".toList) (gap := []) (by rw [textOf_locate]; decide) (by intro x hx; cases hx)
  rwa [List.append_nil] at this

theorem condText_endif {l : Location} : CondText (locate l "endif".toList) .endif := by
  have := CondText.endif (kw := locate l "endif".toList) (gap := []) (by rw [textOf_locate]; decide) (by intro x hx; cases hx)
  rwa [List.append_nil] at this

/-- A file that begins with a conditional, given as a string. -/
theorem makeText_cond {l : Location} {line rest : Str} {c : CondLine} {ls : List MLine} (h1 : '\n' ∉ line)
    (h2 : ∀ c, line.head? = some c → ¬ (c = ' ' ∨ c = '\t')) (h3 : trailingSlashes line % 2 = 0)
    (hc : CondText (locate l line) c) (hr : MakeText (locate ((l.after line).after ['\n']) rest) ls) :
    MakeText (locate l (line ++ '\n' :: rest)) (.cond c :: ls) :=
  .cond (logical_locate h1 h2 h3) (by rw [dropWhile_locate h2]; exact hc) hr

/-- A file that begins with an assignment of a plain text, given as a string. -/
theorem makeText_assign {l : Location} {line name value rest : Str} {ls : List MLine} (e : line = name ++ ('=' :: value))
    (h0 : '\n' ∉ line) (h0' : ∀ c, line.head? = some c → ¬ (c = ' ' ∨ c = '\t')) (hs : trailingSlashes line % 2 = 0)
    (hk : ∀ w ∈ condWords, ¬ w <+: line.map lower) (hd : '$' ∉ name) (hd' : '$' ∉ value)
    (h1 : ∀ c ∈ name, NameChar c) (h5 : ∀ c, value.head? = some c → ¬ (c = ' ' ∨ c = '\t'))
    (hr : MakeText (locate ((l.after line).after ['\n']) rest) ls) :
    ∃ lv, MakeText (locate l (line ++ '\n' :: rest))
      (.assign ⟨Expr.text (locate l name), .recursive, Expr.text (locate lv value)⟩ :: ls) := by
  refine ⟨_, .assign (logical_locate h0 h0' hs) (by
    rw [e]
    exact assignText_locate (gap := []) (op := ['=']) (gap' := []) h1 (by simp) .recursive (by simp) h5)
    (not_condLike_locate h0' hk) (reads_text (free_locate hd)) (reads_text (free_locate hd')) (by simp) hr⟩

end Hastur
