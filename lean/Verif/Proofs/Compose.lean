import Mathlib.Data.List.TakeWhile
import Verif.Proofs.Expr
/-
Reading a text piece by piece.
-/
namespace Hastur

open Res

theorem dangling_skip {a t : List LChar} {x : LChar} (hx : x.1 ≠ '$') : Dangling (a ++ x :: t) ↔ Dangling t := by
  unfold Dangling
  have hf : ((x :: a.reverse).takeWhile fun x => x.1 == '$') = [] := by simp [hx]
  have : (a ++ x :: t).reverse = t.reverse ++ x :: a.reverse := by simp
  rw [this, List.takeWhile_append]
  split
  · rename_i h
    rw [hf, List.append_nil, h]
  · rfl

theorem dangling_two {x y : LChar} {t : List LChar} (hx : x.1 = '$') (hy : y.1 = '$') :
    Dangling (x :: y :: t) ↔ Dangling t := by
  unfold Dangling
  have : (x :: y :: t).reverse = t.reverse ++ [y, x] := by simp
  rw [this, List.takeWhile_append]
  split
  · rename_i h
    rw [h]
    simp [hx, hy]
  · rfl

theorem closing_append {opn cls : Char} {d : Nat} {t n r : List LChar} (h : closing opn cls d t = some (n, r))
    (u : List LChar) : closing opn cls d (t ++ u) = some (n, r ++ u) := by
  induction t generalizing d n with
  | nil => cases h
  | cons x t ih =>
    simp only [List.cons_append, closing] at h ⊢
    have key : ∀ d', (closing opn cls d' t).map (fun p => (x :: p.1, p.2)) = some (n, r) →
        (closing opn cls d' (t ++ u)).map (fun p => (x :: p.1, p.2)) = some (n, r ++ u) := by
      intro d' h'
      obtain ⟨⟨a, b⟩, h1, h2⟩ := Option.map_eq_some_iff.mp h'
      simp only [Prod.mk.injEq] at h2
      obtain ⟨rfl, rfl⟩ := h2
      rw [ih h1]; rfl
    by_cases h1 : x.1 = opn
    · rw [if_pos h1] at h ⊢; exact key _ h
    rw [if_neg h1] at h ⊢
    by_cases h2 : x.1 = cls
    · rw [if_pos h2] at h ⊢
      by_cases h3 : d = 0
      · rw [if_pos h3] at h ⊢
        simp only [Option.some.injEq, Prod.mk.injEq] at h ⊢
        obtain ⟨rfl, rfl⟩ := h
        exact ⟨rfl, rfl⟩
      · rw [if_neg h3] at h ⊢; exact key _ h
    · rw [if_neg h2] at h ⊢; exact key _ h

theorem closing_balanced {t : List LChar} (h : Balanced t) (d : Nat) (u : List LChar) :
    closing '(' ')' d (t ++ u) = (closing '(' ')' d u).map fun p => (t ++ p.1, p.2) := by
  induction h generalizing d u with
  | nil => simp
  | char h1 h2 _ ih =>
    rw [List.cons_append, closing, if_neg h1, if_neg h2, ih, Option.map_map]
    rfl
  | nest _ _ iha ihb =>
    rw [List.cons_append, closing, if_pos rfl, List.append_assoc, iha, List.cons_append, closing,
      if_neg (by simp), if_pos rfl, if_neg (by omega), Nat.add_sub_cancel, ihb]
    simp only [Option.map_map]
    congr 1
    funext p
    simp

theorem closing_of_balanced {t u : List LChar} {l : Location} (h : Balanced t) :
    closing '(' ')' 0 (t ++ (')', l) :: u) = some (t, u) := by
  rw [closing_balanced h, closing, if_neg (by simp), if_pos rfl, if_pos rfl]
  simp

/-- What `closing` cuts off, one nesting level at a time. -/
theorem balanced_of_closing {d : Nat} {t n r : List LChar} (h : closing '(' ')' d t = some (n, r)) :
    ∃ (bs : List (List LChar × Location)) (b : List LChar), bs.length = d ∧
      (∀ p ∈ bs, Balanced p.1) ∧ Balanced b ∧ n = (bs.flatMap fun p => p.1 ++ [(')', p.2)]) ++ b := by
  induction t generalizing d n with
  | nil => cases h
  | cons x t ih =>
    rw [closing] at h
    split at h
    · rename_i hx
      obtain ⟨⟨a, c⟩, h1, h2⟩ := Option.map_eq_some_iff.mp h
      simp only [Prod.mk.injEq] at h2
      obtain ⟨rfl, rfl⟩ := h2
      obtain ⟨bs, b, g1, g2, g3, g4⟩ := ih h1
      cases bs with
      | nil => simp at g1
      | cons p bs =>
        obtain ⟨x, l⟩ := x
        simp only at hx
        subst hx
        cases bs with
        | nil =>
          refine ⟨[], ('(', l) :: (p.1 ++ (')', p.2) :: b), by simp at g1 ⊢; omega, by simp,
            .nest (g2 _ (by simp)) g3, ?_⟩
          simp [g4]
        | cons q bs =>
          refine ⟨(('(', l) :: (p.1 ++ (')', p.2) :: q.1), q.2) :: bs, b, by simpa using g1, ?_, g3, ?_⟩
          · intro r hr
            rcases List.mem_cons.mp hr with rfl | hr
            · exact .nest (g2 p (by simp)) (g2 q (by simp))
            · exact g2 r (by simp [hr])
          · simp [g4]
    · rename_i hx
      split at h
      · rename_i hc
        split at h
        · simp only [Option.some.injEq, Prod.mk.injEq] at h
          obtain ⟨rfl, rfl⟩ := h
          rename_i hd
          exact ⟨[], [], by simp [hd], by simp, .nil, rfl⟩
        · obtain ⟨⟨a, c⟩, h1, h2⟩ := Option.map_eq_some_iff.mp h
          simp only [Prod.mk.injEq] at h2
          obtain ⟨rfl, rfl⟩ := h2
          obtain ⟨bs, b, g1, g2, g3, g4⟩ := ih h1
          obtain ⟨x, l⟩ := x
          simp only at hc
          subst hc
          refine ⟨([], l) :: bs, b, by simp; omega, ?_, g3, by simp [g4]⟩
          intro r hr
          rcases List.mem_cons.mp hr with rfl | hr
          · exact .nil
          · exact g2 r hr
      · rename_i hc
        obtain ⟨⟨a, c⟩, h1, h2⟩ := Option.map_eq_some_iff.mp h
        simp only [Prod.mk.injEq] at h2
        obtain ⟨rfl, rfl⟩ := h2
        obtain ⟨bs, b, g1, g2, g3, g4⟩ := ih h1
        cases bs with
        | nil => exact ⟨[], x :: b, g1, by simp, .char hx hc g3, by simp [g4]⟩
        | cons p bs =>
          refine ⟨(x :: p.1, p.2) :: bs, b, g1, ?_, g3, by simp [g4]⟩
          intro r hr
          rcases List.mem_cons.mp hr with rfl | hr
          · exact .char hx hc (g2 p (by simp))
          · exact g2 r (by simp [hr])

theorem closing_none {t : List LChar} (h : ∀ a l b, t = a ++ (')', l) :: b → ¬ Balanced a) :
    closing '(' ')' 0 t = none := by
  cases hc : closing '(' ')' 0 t with
  | none => rfl
  | some p =>
    obtain ⟨n, r⟩ := p
    obtain ⟨l, hl⟩ := closing_some hc
    obtain ⟨bs, b, h1, _, h3, h4⟩ := balanced_of_closing hc
    have : bs = [] := List.length_eq_zero_iff.mp h1
    subst this
    rw [List.flatMap_nil, List.nil_append] at h4
    subst h4
    exact absurd h3 (h _ _ _ hl)

theorem calls_eq_none {t : List LChar} : calls t = none ↔ ¬ CallLike t := by
  unfold calls CallLike
  rw [Option.map_eq_none_iff, List.find?_eq_none]
  simp only [List.isPrefixOf_iff_prefix]
  constructor
  · rintro h ⟨f, hf⟩
    cases f <;> exact h _ (by simp) hf
  · exact fun h f _ hf => h ⟨f, hf⟩

theorem Plain.cons {e : Expr} {es : List Expr} :
    Plain (e :: es) ↔ ((∃ x, e = .char x) ∨ ∃ l n, e = .ref l n) ∧ Plain es := by simp [Plain]

theorem map_ok_outcome {o : Outcome} {f : List Expr → List Expr} {es : List Expr} (h : o.map f = .ok es) :
    ∃ es', o = .ok es' ∧ es = f es' := by
  cases o with
  | error k => cases h
  | ok es' => exact ⟨es', rfl, by simpa [Except.map] using h.symm⟩

theorem readsCall_not_plain {l : Location} {f : Fn} {a : List LChar} {es : List Expr} (h : ReadsCall l f a (.ok es)) :
    ¬ Plain es := by
  have key : ∀ e, ((¬ ∃ x, e = Expr.char x) ∧ ¬ ∃ l n, e = Expr.ref l n) → es = [e] → ¬ Plain es := by
    rintro e ⟨h1, h2⟩ rfl hp
    rcases (Plain.cons.mp hp).1 with h | h
    · exact h1 h
    · exact h2 h
  generalize ho : (Except.ok es : Outcome) = o at h
  cases h with
  | eval h => obtain ⟨es', _, rfl⟩ := map_ok_outcome ho.symm; exact key _ (by simp) rfl
  | strip _ h => obtain ⟨es', _, rfl⟩ := map_ok_outcome ho.symm; exact key _ (by simp) rfl
  | words _ h => obtain ⟨es', _, rfl⟩ := map_ok_outcome ho.symm; exact key _ (by simp) rfl
  | word _ _ _ h => obtain ⟨es', _, rfl⟩ := map_ok_outcome ho.symm; exact key _ (by simp) rfl
  | _ => cases ho

/-- A text that is read as an expression without function calls, followed by another text. -/
theorem reads_append {pre post : List LChar} {es : List Expr} {o : Outcome} (h : Reads pre (.ok es)) (hp : Plain es)
    (hd : ¬ Dangling pre) (h' : Reads post o) : Reads (pre ++ post) (o.map (es ++ ·)) := by
  induction hn : pre.length using Nat.strongRecOn generalizing pre es with
  | ind n ih =>
    subst hn
    have hco : ∀ (e : Expr) (es : List Expr), o.map ((e :: es) ++ ·) = (o.map (es ++ ·)).map (e :: ·) := by
      intro e es; cases o <;> simp [Except.map]
    generalize ho : (Except.ok es : Outcome) = oo at h
    cases h with
    | nil => cases ho; simpa [map_id_outcome] using h'
    | char hx h =>
      obtain ⟨es', rfl, rfl⟩ := map_ok_outcome ho.symm
      rw [List.cons_append, hco]
      exact .char hx (ih _ (by simp) h (Plain.cons.mp hp).2 (fun hh => hd ((dangling_skip (a := []) hx).mpr hh)) rfl)
    | last => exact absurd (by simp [Dangling]) hd
    | dollar h =>
      obtain ⟨es', rfl, rfl⟩ := map_ok_outcome ho.symm
      rw [List.cons_append, List.cons_append, hco]
      exact .dollar (ih _ (by simp; omega) h (Plain.cons.mp hp).2 (fun hh => hd ((dangling_two rfl rfl).mpr hh)) rfl)
    | single h1 h2 h3 h =>
      obtain ⟨es', rfl, rfl⟩ := map_ok_outcome ho.symm
      rw [List.cons_append, List.cons_append, hco]
      exact .single h1 h2 h3
        (ih _ (by simp; omega) h (Plain.cons.mp hp).2 (fun hh => hd ((dangling_skip (a := [_]) h1).mpr hh)) rfl)
    | @paren l l' t _ h =>
      subst ho
      rw [List.cons_append, List.cons_append]
      refine .paren ?_
      generalize hc : closing '(' ')' 0 t = c at h
      generalize ho : (Except.ok es : Outcome) = oo at h
      cases h with
      | unclosed => cases ho
      | nameError => cases ho
      | call h1 h2 => subst ho; exact absurd hp (readsCall_not_plain h2)
      | @ref _ name rest ns _ h1 h2 h3 =>
        obtain ⟨es', rfl, rfl⟩ := map_ok_outcome ho.symm
        rw [closing_append hc, hco]
        obtain ⟨lc, hlc⟩ := closing_some hc
        refine .ref h1 h2 (ih _ (by simp [hlc]; omega) h3 (Plain.cons.mp hp).2 (fun hh => hd ?_) rfl)
        rw [hlc]
        exact (dangling_skip (a := _ :: _ :: name) (by simp)).mpr hh
    | @brace l l' t _ h =>
      subst ho
      rw [List.cons_append, List.cons_append]
      refine .brace ?_
      generalize hc : closing '{' '}' 0 t = c at h
      generalize ho : (Except.ok es : Outcome) = oo at h
      cases h with
      | unclosed => cases ho
      | nameError => cases ho
      | call h1 h2 => subst ho; exact absurd hp (readsCall_not_plain h2)
      | @ref _ name rest ns _ h1 h2 h3 =>
        obtain ⟨es', rfl, rfl⟩ := map_ok_outcome ho.symm
        rw [closing_append hc, hco]
        obtain ⟨lc, hlc⟩ := closing_some hc
        refine .ref h1 h2 (ih _ (by simp [hlc]; omega) h3 (Plain.cons.mp hp).2 (fun hh => hd ?_) rfl)
        rw [hlc]
        exact (dangling_skip (a := _ :: _ :: name) (by simp)).mpr hh

/-! ### Between `Parses` and `Reads` -/

theorem parses_of_reads {P : Block} (hm : Block.Mono P) {t : List LChar} {i : Span} (h : i.At P t) {o : Outcome}
    (hr : Reads t o) : Parses i o := by
  have := parseAst_at hm h hr
  cases o with
  | ok es => obtain ⟨r, a, h1, h2, h3, _⟩ := this; exact ⟨r, a, h1, h2.ltext, h3⟩
  | error k => exact this.1

theorem parses_det {i : Span} {o o' : Outcome} (h : Parses i o) (h' : Parses i o') : o = o' := by
  cases o with
  | ok es =>
    obtain ⟨r, a, h1, _, h3⟩ := h
    cases o' with
    | ok es' =>
      obtain ⟨r', a', g1, _, g3⟩ := h'
      rw [h1] at g1
      simp only [Res.ok.injEq, IRes.done.injEq] at g1
      rw [← h3, ← g3, g1.2]
    | error k => rw [Parses, h1] at h'; cases h'
  | error k =>
    cases o' with
    | ok es' =>
      obtain ⟨r', a', g1, _, g3⟩ := h'
      rw [Parses, g1] at h; cases h
    | error k' => rw [Parses] at h h'; rw [h] at h'; simpa using h'

theorem reads_of_parses {P : Block} (hm : Block.Mono P) {t : List LChar} {i : Span} (h : i.At P t) {o : Outcome}
    (hp : Parses i o) : Reads t o := by
  obtain ⟨o', ho⟩ := reads_exists t
  rw [parses_det hp (parses_of_reads hm h ho)]
  exact ho

/-! ### Printing -/

theorem printable_reads {es : List Expr} (h : Printable (fun t => ¬ CallLike t) es) : Reads (Expr.printAll es) (.ok es) := by
  induction h with
  | nil => exact .nil
  | @char x es _ ih =>
    rw [Expr.printAll, Expr.print]
    split
    · rename_i hx
      obtain ⟨c, l⟩ := x
      simp only at hx
      subst hx
      exact .dollar ih
    · rename_i hx
      exact .char hx ih
  | @ref l n es _ hb hc _ ih1 ih2 =>
    rw [Expr.printAll, Expr.print, List.cons_append, List.cons_append, List.append_assoc, List.singleton_append]
    refine .paren ?_
    rw [closing_of_balanced hb]
    exact .ref (o := .ok es) (calls_eq_none.mpr hc) ih1 ih2

/-! ### Evaluating text -/

end Hastur
