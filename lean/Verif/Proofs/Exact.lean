import Verif.Proofs.Compose
/-
The converse of round trips: what is read back contains no name that begins with the name of a function (C31, C73).
-/
namespace Hastur

open Res

theorem map_ok {α β : Type} {g : α → β} {o : Except ParseErrorKind α} {b : β} (h : Except.ok b = o.map g) :
    ∃ a, o = .ok a ∧ b = g a := by
  cases o with
  | error _ => cases h
  | ok a => exact ⟨a, rfl, by simpa [Except.map] using h⟩

/-- A call is never a reference. -/
theorem readsCall_not_ref {l l' : Location} {g : Fn} {a : List LChar} {n es : List Expr} :
    ¬ ReadsCall l g a (.ok (.ref l' n :: es)) := by
  intro h
  generalize ho : (Except.ok (.ref l' n :: es) : Outcome) = o at h
  cases h <;> first
    | (obtain ⟨_, _, h⟩ := map_ok ho; simp at h)
    | cases ho

theorem printable_of_reads {es : List Expr} (h : Printable (fun _ => True) es)
    (hr : Reads (Expr.printAll es) (.ok es)) : Printable (fun t => ¬ CallLike t) es := by
  induction h with
  | nil => exact .nil
  | @char x es hp ih =>
    obtain ⟨c, l⟩ := x
    refine .char (ih ?_)
    rw [Expr.printAll, Expr.print] at hr
    generalize ho : (Except.ok (.char (c, l) :: es) : Outcome) = o at hr
    split at hr
    · rename_i hc
      have hc : c = '$' := hc
      subst hc
      cases hr with
      | char h => exact absurd rfl h
      | dollar h =>
        obtain ⟨es', rfl, h3⟩ := map_ok ho
        injection h3 with _ h3
        subst h3; exact h
      | single h => exact absurd rfl h
    · rename_i hc
      generalize ht : Expr.printAll es = t at hr ih
      cases hr with
      | char _ h =>
        obtain ⟨es', rfl, h3⟩ := map_ok ho
        injection h3 with _ h3
        subst h3; exact h
      | last => exact absurd rfl hc
      | dollar => exact absurd rfl hc
      | single => exact absurd rfl hc
      | paren => exact absurd rfl hc
      | brace => exact absurd rfl hc
  | @ref l n es hn hb _ hp ih1 ih2 =>
    rw [Expr.printAll, Expr.print] at hr
    simp only [List.cons_append, List.append_assoc, List.nil_append] at hr
    generalize ho : (Except.ok (.ref l n :: es) : Outcome) = o at hr
    cases hr with
    | char h => exact absurd rfl h
    | single _ h => exact absurd rfl h
    | paren h =>
      rw [closing_of_balanced hb] at h
      cases h with
      | ref hc h1 h2 =>
        obtain ⟨es', rfl, h3⟩ := map_ok ho
        injection h3 with h3 h4
        injection h3 with _ h3
        subst h3 h4
        exact .ref (ih1 h1) hb (calls_eq_none.mp hc) (ih2 h2)
      | nameError => cases ho
      | call _ h => subst ho; exact absurd h readsCall_not_ref

end Hastur
