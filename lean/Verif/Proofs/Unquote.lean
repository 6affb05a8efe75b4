import Verif.Proofs.Lines
/-
Lemmas: unquoting and file sequences.
-/
namespace Hastur

open Span Res

variable {P : Block} {t : List LChar} {i : Span}

/-- A block under construction from parts of block `P`. -/
structure Partial (P : Block) (t : List LChar) (b : Block) : Prop where
  ltext : Block.ltext b = t
  wf : Block.WF b
  sens : ∀ v, v ∈ b.sens ↔ v ∈ P.sens
  mono : Block.Mono P → Block.Mono b

theorem Partial.start {P : Block} : Partial P [] ⟨P.sens, []⟩ := ⟨rfl, trivial, fun _ => Iff.rfl, fun _ => trivial⟩

theorem Partial.push {P b : Block} {t u : List LChar} {s : Span} (h : Partial P t b) (hs : s.At P u) :
    ∃ b', b.pushAll s = .ok b' ∧ Partial P (t ++ u) b' := by
  obtain ⟨b', h1, h2, _, h4, h5, h6, _⟩ := Block.pushAll_spec h.wf hs.good
  refine ⟨b', h1, by rw [h2, h.ltext, hs.ltext], h5, ?_, fun m => h6 (h.mono m) (by rw [hs.parent]; exact m)⟩
  intro v
  rw [h4]
  split
  · exact h.sens v
  · rw [Sens.mem_union, h.sens, hs.parent]; simp

/-- A finished block made of parts of block `P`. -/
structure Part (P : Block) (t : List LChar) (b : Block) : Prop where
  ltext : Block.ltext b = t
  wf : Block.WF b
  solid : b.Solid
  sens : ∀ v, v ∈ b.sens → v ∈ P.sens
  sens_all : t ≠ [] → ∀ v, v ∈ P.sens → v ∈ b.sens
  mono : Block.Mono P → Block.Mono b

theorem Part.at {P b : Block} {t : List LChar} (h : Part P t b) : b.span.At b t := by
  have := Block.span_at h.wf h.solid
  rwa [h.ltext] at this

theorem Part.len {P b : Block} {t : List LChar} (h : Part P t b) : b.len = t.length := by
  rw [← h.ltext, Block.ltext_length b h.wf]

theorem Partial.finish {P b : Block} {t : List LChar} (h : Partial P t b) :
    ∃ b', b.simplify = .ok b' ∧ Part P t b' := by
  obtain ⟨b', h1, h2, _, h4, h5, h6, h7⟩ := Block.simplify_spec h.wf
  exact ⟨b', h1, by rw [h2, h.ltext], h5, h6, fun v hv => (h.sens v).mp (h4 ▸ hv),
    fun _ v hv => h4 ▸ (h.sens v).mpr hv, fun m => h7 (h.mono m)⟩

theorem Span.At.part (h : i.At P t) : ∃ b, i.toNewBlock = .ok b ∧ Part P t b := by
  obtain ⟨b, h1, h2, _, h4, h5, h6, h7⟩ := h.toNewBlock
  refine ⟨b, h1, h2, h5, h6, ?_, ?_, h7⟩
  · intro v hv
    rw [h4] at hv
    split at hv
    · cases hv
    · exact hv
  · intro hne v hv
    rw [h4, if_neg hne]; exact hv

/-! ### `makefile_take_until_unquote` -/

/-- State of the loop before position `pre.length`. -/
structure UnquoteInv (P : Block) (stop : Char → Bool) (pre run : List LChar) (T : List LChar) (st : UnquoteState) : Prop where
  tr : Partial P T st.tr
  le1 : st.nextPush ≤ st.nonslash
  le2 : st.nonslash + run.length = pre.length
  runEq : pre.drop st.nonslash = run
  slashes : ∀ x ∈ run, x.1 = '\\'
  unseen : st.seen = false → T = [] ∧ st.nextPush = 0 ∧ st.stopChar = none
  maximal : ∀ y z, pre.take st.nonslash = y ++ [z] → z.1 ≠ '\\'
  seenIff : st.seen = true ↔ ∃ x ∈ pre, stop x.1 = true

theorem drop_append_exact {α : Type} {a b : List α} {n : Nat} (h : n ≤ a.length) : (a ++ b).drop n = a.drop n ++ b :=
  List.drop_append_of_le_length h

/-- The text between the last push and the backslashes being counted. -/
def pending (pre : List LChar) (st : UnquoteState) : List LChar :=
  (pre.drop st.nextPush).take (st.nonslash - st.nextPush)

theorem pending_run {pre run T : List LChar} {st : UnquoteState} {stop : Char → Bool} (h : UnquoteInv P stop pre run T st) :
    pre.drop st.nextPush = pending pre st ++ run := by
  have h1 := h.le1
  have h2 := h.le2
  unfold pending
  conv => lhs; rw [← List.take_append_drop (st.nonslash - st.nextPush) (pre.drop st.nextPush)]
  rw [List.drop_drop, show st.nextPush + (st.nonslash - st.nextPush) = st.nonslash by omega, h.runEq]

/-- What the loop returns. -/
inductive UnquoteEnd (P : Block) (stop : Char → Bool) (t : List LChar) (out : List LChar) :
    Option (LChar × List LChar) → UnquoteState × Option Nat → Prop
  | stop (st : UnquoteState) (x : LChar) (rest : List LChar) (s : Span) (idx : Nat) :
      Partial P out st.tr → st.stopChar = some s → s.At P [x] → idx < t.length → t.drop (idx + 1) = rest →
      UnquoteEnd P stop t out (some (x, rest)) (st, some idx)
  | none (st : UnquoteState) (T run : List LChar) :
      UnquoteInv P stop t run T st → T ++ pending t st ++ run = out → UnquoteEnd P stop t out none (st, none)

theorem unquoteLoop_spec (stop : Char → Bool) (hs : stop '\\' = false) (h : i.At P t) (u pre run T : List LChar)
    (ht : t = pre ++ u) (st : UnquoteState) (inv : UnquoteInv P stop pre run T st) :
    ∃ e, unquoteLoop i stop false (indexed pre.length (textOf u)) st = .ok e ∧
      UnquoteEnd P stop t (T ++ pending pre st ++ (unquote stop run u).1) (unquote stop run u).2 e := by
  induction u generalizing pre run T st with
  | nil =>
    rw [List.append_nil] at ht
    subst ht
    exact ⟨(st, none), rfl, .none st T run inv rfl⟩
  | cons x u ih =>
    have le1 := inv.le1
    have le2 := inv.le2
    have ht' : t = (pre ++ [x]) ++ u := by simp [ht]
    have hlen : pre.length < t.length := by rw [ht]; simp
    simp only [textOf_cons, indexed_cons, unquoteLoop, unquote]
    have hl' : (pre ++ [x]).length = pre.length + 1 := by simp
    have hpend : ∀ n, n ≤ run.length →
        ((t.drop st.nextPush).take (st.nonslash + n - st.nextPush)) = pending pre st ++ run.take n := by
      intro n hn
      rw [ht, drop_append_exact (by omega), List.take_append_of_le_length (by rw [List.length_drop]; omega),
        pending_run inv]
      have hp : (pending pre st).length = st.nonslash - st.nextPush := by
        simp [pending]; omega
      rw [show st.nonslash + n - st.nextPush = (pending pre st).length + n by omega, List.take_length_add_append]
    by_cases hx : x.1 = '\\'
    · have hns : ¬ stop x.1 = true := by rw [hx, hs]; simp
      rw [if_neg hns, if_pos hx, if_pos hx]
      have := ih (pre ++ [x]) (run ++ [x]) T ht' st
        { tr := inv.tr, le1 := le1, le2 := (by simp; omega),
          runEq := (by rw [drop_append_exact (by omega), inv.runEq]),
          slashes := by
            intro y hy
            rcases List.mem_append.mp hy with hy | hy
            · exact inv.slashes y hy
            · rw [List.mem_singleton.mp hy]; exact hx
          unseen := inv.unseen
          maximal := by
            intro y z e
            rw [List.take_append_of_le_length (by omega)] at e
            exact inv.maximal y z e
          seenIff := by
            rw [inv.seenIff]
            simp [hx, hs] }
      rw [hl'] at this
      have hp : pending (pre ++ [x]) st = pending pre st := by
        unfold pending
        rw [drop_append_exact (by omega), List.take_append_of_le_length (by rw [List.length_drop]; omega)]
      rw [hp] at this
      exact this
    · rw [if_neg hx]
      simp only [if_neg hx]
      have hmax : ∀ y z, (pre ++ [x]).take (pre.length + 1) = y ++ [z] → z.1 ≠ '\\' := by
        intro y z e
        rw [List.take_of_length_le (by simp)] at e
        have := (List.append_inj' e rfl).2
        cases this
        exact hx
      by_cases hst : stop x.1 = true
      · rw [if_pos hst, if_pos hst]
        obtain ⟨sc, s1, s2⟩ := h.slice (a := pre.length) (b := pre.length + 1) (by omega) (by omega)
        have hsc : (t.drop pre.length).take (pre.length + 1 - pre.length) = [x] := by
          rw [ht]; simp
        rw [hsc] at s2
        rw [s1, Res.ok_bind, show pre.length - st.nonslash = run.length by omega]
        by_cases hodd : run.length % 2 = 1
        · rw [if_pos hodd, if_pos hodd, usub_of_le (by omega), Res.ok_bind]
          obtain ⟨piece, p1, p2⟩ := h.slice (a := st.nextPush) (b := pre.length - run.length / 2 - 1) (by omega) (by omega)
          rw [show pre.length - run.length / 2 - 1 = st.nonslash + run.length / 2 by omega] at p1 p2 ⊢
          rw [hpend (run.length / 2) (by omega)] at p2
          obtain ⟨tr, t1, t2⟩ := inv.tr.push p2
          rw [p1, Res.ok_bind, t1, Res.ok_bind]
          have := ih (pre ++ [x]) [] (T ++ (pending pre st ++ run.take (run.length / 2))) ht'
            { tr := tr, stopChar := some sc, seen := true, nextPush := pre.length, nonslash := pre.length + 1 }
            { tr := t2, le1 := (by simp), le2 := (by simp), runEq := (by simp), slashes := (by simp),
              unseen := (by simp), maximal := hmax, seenIff := (by simp [hst]) }
          rw [hl'] at this
          obtain ⟨e, e1, e2⟩ := this
          refine ⟨e, e1, ?_⟩
          have hp : pending (pre ++ [x]) ⟨tr, some sc, pre.length + 1, pre.length, true⟩ = [x] := by
            simp [pending]
          rw [hp] at e2
          simpa using e2
        · rw [if_neg hodd, if_neg hodd]
          obtain ⟨piece, p1, p2⟩ := h.slice (a := st.nextPush) (b := pre.length - run.length / 2) (by omega) (by omega)
          rw [show pre.length - run.length / 2 = st.nonslash + run.length / 2 by omega] at p1 p2 ⊢
          rw [hpend (run.length / 2) (by omega)] at p2
          obtain ⟨tr, t1, t2⟩ := inv.tr.push p2
          rw [p1, Res.ok_bind, t1, Res.ok_bind]
          refine ⟨_, rfl, .stop _ x u sc pre.length ?_ rfl s2 hlen ?_⟩
          · simpa using t2
          · rw [ht]; simp
      · rw [if_neg hst, if_neg hst]
        have := ih (pre ++ [x]) [] T ht' { st with nonslash := pre.length + 1 }
          { tr := inv.tr, le1 := (by simp; omega), le2 := (by simp), runEq := (by simp), slashes := (by simp),
            unseen := inv.unseen, maximal := hmax, seenIff := (by rw [inv.seenIff]; simp [hst]) }
        rw [hl'] at this
        obtain ⟨e, e1, e2⟩ := this
        refine ⟨e, e1, ?_⟩
        have hp : pending (pre ++ [x]) { st with nonslash := pre.length + 1 } = pending pre st ++ run ++ [x] := by
          rw [← pending_run inv]
          simp only [pending]
          rw [drop_append_exact (by omega)]
          apply List.take_of_length_le
          simp; omega
        rw [hp] at e2
        simpa using e2

theorem takeUntilUnquote_spec (stop : Char → Bool) (hs : stop '\\' = false) (h0 : stop (Char.ofNat 0) = false)
    (h : i.At P t) :
    (∀ x rest, (unquote stop [] t).2 = some (x, rest) →
      ∃ b sc post, takeUntilUnquote i stop = .ok (b, some (sc, post)) ∧ Part P (unquote stop [] t).1 b ∧
        sc.At P [x] ∧ post.At P rest) ∧
    ((unquote stop [] t).2 = none →
      ∃ b, takeUntilUnquote i stop = .ok (b, none) ∧ Part P (unquote stop [] t).1 b) := by
  obtain ⟨e, e1, e2⟩ := unquoteLoop_spec stop hs h t [] [] [] rfl
    { tr := ⟨P.sens, []⟩, stopChar := none, nonslash := 0, nextPush := 0, seen := false }
    { tr := Partial.start, le1 := Nat.le_refl _, le2 := rfl, runEq := rfl, slashes := (by simp), unseen := (by simp),
      maximal := (by simp), seenIff := (by simp) }
  simp only [List.length_nil, pending, List.drop_nil, List.take_nil, List.nil_append] at e1 e2
  unfold takeUntilUnquote
  rw [h.chars]
  simp only [withIndices_eq 0 h.ascii, h.parent, e1, Res.ok_bind]
  generalize hq : (unquote stop [] t).1 = out at e2
  generalize hr : (unquote stop [] t).2 = res at e2
  cases e2 with
  | stop st x rest s idx a1 a2 a3 a4 a5 =>
    refine ⟨?_, by simp⟩
    intro y r hy
    simp only [Option.some.injEq, Prod.mk.injEq] at hy
    obtain ⟨rfl, rfl⟩ := hy
    obtain ⟨b, b1, b2⟩ := a1.finish
    obtain ⟨p, p1, p2⟩ := h.sliceFrom (n := idx + 1) (by omega)
    rw [a5] at p2
    refine ⟨b, s, p, ?_, b2, a3, p2⟩
    simp [a2, b1, h.length, a4, p1]
  | none st T run a1 a2 =>
    refine ⟨by simp, ?_⟩
    intro _
    have hnp : st.nextPush ≤ t.length := by have := a1.le1; have := a1.le2; omega
    simp only [h0, Bool.false_eq_true, if_false, Res.ok_bind]
    cases hseen : st.seen with
    | false =>
      obtain ⟨u1, u2, _⟩ := a1.unseen hseen
      obtain ⟨b, b1, b2⟩ := h.part
      have := pending_run a1
      rw [u2, List.drop_zero] at this
      rw [u1, List.nil_append, ← this] at a2
      exact ⟨b, by simp [b1], by rw [← a2]; exact b2⟩
    | true =>
      obtain ⟨p, p1, p2⟩ := h.sliceFrom hnp
      obtain ⟨tr, t1, t2⟩ := a1.tr.push p2
      obtain ⟨b, b1, b2⟩ := t2.finish
      refine ⟨b, by simp [p1, t1, b1], ?_⟩
      rw [← a2, List.append_assoc, ← pending_run a1]
      exact b2

/-! ### File sequences -/

/-- Text without backslashes is not changed. -/
theorem unquote_noslash (stop : Char → Bool) (t : List LChar) (h : Free '\\' t) :
    (unquote stop [] t).1 = t.takeWhile (fun x => !stop x.1) ∧
      ∀ x rest, (unquote stop [] t).2 = some (x, rest) ↔ t.dropWhile (fun x => !stop x.1) = x :: rest := by
  induction t with
  | nil => simp [unquote]
  | cons x t ih =>
    rw [Free.cons] at h
    obtain ⟨h1, h2⟩ := ih h.2
    simp only [unquote, if_neg h.1]
    by_cases hs : stop x.1 = true
    · simp [hs]
    · simp [hs, h1, h2]

theorem unquote_noslash_none (stop : Char → Bool) (t : List LChar) (h : Free '\\' t) :
    (unquote stop [] t).2 = none ↔ t.dropWhile (fun x => !stop x.1) = [] := by
  obtain ⟨_, h2⟩ := unquote_noslash stop t h
  constructor
  · intro hn
    cases hd : t.dropWhile (fun x => !stop x.1) with
    | nil => rfl
    | cons x rest => rw [(h2 x rest).mpr hd] at hn; cases hn
  · intro hd
    cases hn : (unquote stop [] t).2 with
    | none => rfl
    | some p => obtain ⟨x, rest⟩ := p; rw [(h2 x rest).mp hn] at hd; cases hd

/-- Cutting a text without backslashes at stop characters that include NUL: the end of the text counts as a NUL. -/
theorem takeUntilUnquote_nul (stop : Char → Bool) (hs : stop '\\' = false) (h0 : stop (Char.ofNat 0) = true)
    (h : i.At P t) (hne : t ≠ []) (hf : Free '\\' t) :
    ∃ b sc post, takeUntilUnquote i stop = .ok (b, some (sc, post)) ∧ Part P (t.takeWhile (fun x => !stop x.1)) b ∧
      post.At P ((t.dropWhile (fun x => !stop x.1)).drop 1) := by
  have hpos := List.length_pos_iff.mpr hne
  obtain ⟨e, e1, e2⟩ := unquoteLoop_spec stop hs h t [] [] [] rfl
    { tr := ⟨P.sens, []⟩, stopChar := none, nonslash := 0, nextPush := 0, seen := false }
    { tr := Partial.start, le1 := Nat.le_refl _, le2 := rfl, runEq := rfl, slashes := (by simp), unseen := (by simp),
      maximal := (by simp), seenIff := (by simp) }
  simp only [List.length_nil, pending, List.drop_nil, List.take_nil, List.nil_append] at e1 e2
  unfold takeUntilUnquote
  rw [h.chars]
  simp only [withIndices_eq 0 h.ascii, h.parent, e1, Res.ok_bind]
  have hspec := unquote_noslash stop t hf
  have hnone := unquote_noslash_none stop t hf
  rw [hspec.1] at e2
  generalize hr : (unquote stop [] t).2 = res at e2
  cases e2 with
  | stop st x rest s idx a1 a2 a3 a4 a5 =>
    obtain ⟨b, b1, b2⟩ := a1.finish
    obtain ⟨p, p1, p2⟩ := h.sliceFrom (n := idx + 1) (by omega)
    rw [a5] at p2
    rw [(hspec.2 x rest).mp hr]
    exact ⟨b, s, p, by simp [a2, b1, h.length, a4, p1], b2, p2⟩
  | none st T run a1 a2 =>
    have hd := hnone.mp hr
    have hrun : run = [] := by
      cases hrun : run with
      | nil => rfl
      | cons x l =>
        exfalso
        have hx := a1.slashes x (by rw [hrun]; simp)
        have : x ∈ t := List.mem_of_mem_drop (by rw [a1.runEq, hrun]; simp)
        exact hf x this hx
    have hns : st.nonslash = t.length := by have := a1.le2; rw [hrun] at this; simpa using this
    have hnp : st.nextPush ≤ t.length := by have := a1.le1; omega
    have h1 := a1.le1
    obtain ⟨piece, p1, p2⟩ := h.slice (a := st.nextPush) (b := t.length) hnp (Nat.le_refl _)
    rw [List.take_of_length_le (by rw [List.length_drop])] at p2
    obtain ⟨tr, t1, t2⟩ := a1.tr.push p2
    obtain ⟨b, b1, b2⟩ := t2.finish
    have hout : T ++ t.drop st.nextPush = t.takeWhile (fun x => !stop x.1) := by
      rw [← a2, List.append_assoc, ← pending_run a1]
    rw [hout] at b2
    obtain ⟨q, q1, q2⟩ := h.sliceFrom (n := t.length) (Nat.le_refl _)
    rw [hd]
    rw [List.drop_length] at q2
    refine ⟨b, match st.stopChar with | some s => s | none => q, q, ?_, b2, q2⟩
    simp only [h0, if_true, h.length, hns, Nat.sub_self, Nat.zero_div, Nat.sub_zero, p1, Res.ok_bind, t1, Nat.zero_mod,
      usub_of_le (show 1 ≤ t.length from hpos), Res.pure_eq]
    rw [if_neg (by decide), Res.ok_bind]
    simp only
    cases st.stopChar <;>
    simp only [q1, Res.ok_bind, b1, if_pos (show t.length - 1 < t.length by omega), Nat.sub_add_cancel hpos] <;> rfl

theorem trailing_eq {a run : List LChar} (ha : ∀ y z, a = y ++ [z] → z.1 ≠ '\\') (hr : ∀ x ∈ run, x.1 = '\\') :
    trailingSlashes (textOf (a ++ run)) = run.length := by
  unfold trailingSlashes textOf
  rw [List.map_append, List.reverse_append, List.takeWhile_append_of_pos (by
    intro c hc
    obtain ⟨x, hx, rfl⟩ := List.mem_map.mp (List.mem_reverse.mp hc)
    simp [hr x hx])]
  have : (a.map Prod.fst).reverse.takeWhile (· == '\\') = [] := by
    rw [← List.map_reverse]
    cases he : a.reverse with
    | nil => rfl
    | cons z l =>
      have := ha l.reverse z (by rw [← List.reverse_inj, he]; simp)
      rw [List.map_cons, List.takeWhile_cons_of_neg (by simpa using this)]
  rw [this]
  simp

/-- Cutting a text at stop characters that include NUL, in general. -/
theorem takeUntilUnquote_end (stop : Char → Bool) (hs : stop '\\' = false) (h0 : stop (Char.ofNat 0) = true)
    (h : i.At P t) (hne : t ≠ []) :
    (∀ x rest, (unquote stop [] t).2 = some (x, rest) →
      ∃ b sc post, takeUntilUnquote i stop = .ok (b, some (sc, post)) ∧ Part P (unquote stop [] t).1 b ∧ sc.At P [x] ∧
        post.At P rest) ∧
    ((unquote stop [] t).2 = none →
      (trailingSlashes (textOf t) % 2 = 0 → ∃ b sc post, takeUntilUnquote i stop = .ok (b, some (sc, post)) ∧
        Part P (lastName stop t) b ∧ post.At P []) ∧
      (trailingSlashes (textOf t) % 2 = 1 → ∃ b, takeUntilUnquote i stop = .ok (b, none) ∧ Part P (lastName stop t) b)) := by
  have hpos := List.length_pos_iff.mpr hne
  obtain ⟨e, e1, e2⟩ := unquoteLoop_spec stop hs h t [] [] [] rfl
    { tr := ⟨P.sens, []⟩, stopChar := none, nonslash := 0, nextPush := 0, seen := false }
    { tr := Partial.start, le1 := Nat.le_refl _, le2 := rfl, runEq := rfl, slashes := (by simp), unseen := (by simp),
      maximal := (by simp), seenIff := (by simp) }
  simp only [List.length_nil, pending, List.drop_nil, List.take_nil, List.nil_append] at e1 e2
  unfold takeUntilUnquote
  rw [h.chars]
  simp only [withIndices_eq 0 h.ascii, h.parent, e1, Res.ok_bind]
  have hlast1 : trailingSlashes (textOf t) % 2 = 1 → (∀ x ∈ t, stop x.1 = false) → lastName stop t = (unquote stop [] t).1 :=
    fun a b => if_pos ⟨a, b⟩
  have hlast2 : ¬ (trailingSlashes (textOf t) % 2 = 1 ∧ ∀ x ∈ t, stop x.1 = false) → lastName stop t =
      (unquote stop [] t).1.take ((unquote stop [] t).1.length - trailingSlashes (textOf t) / 2) := fun a => if_neg a
  generalize hq : (unquote stop [] t).1 = out at e2 hlast1 hlast2
  generalize hr : (unquote stop [] t).2 = res at e2
  cases e2 with
  | stop st x rest s idx a1 a2 a3 a4 a5 =>
    refine ⟨?_, by simp⟩
    intro y r hy
    simp only [Option.some.injEq, Prod.mk.injEq] at hy
    obtain ⟨rfl, rfl⟩ := hy
    obtain ⟨b, b1, b2⟩ := a1.finish
    obtain ⟨p, p1, p2⟩ := h.sliceFrom (n := idx + 1) (by omega)
    rw [a5] at p2
    refine ⟨b, s, p, ?_, b2, a3, p2⟩
    simp [a2, b1, h.length, a4, p1]
  | none st T run a1 a2 =>
    refine ⟨by simp, fun _ => ?_⟩
    have le1 := a1.le1
    have le2 := a1.le2
    have htr : trailingSlashes (textOf t) = run.length := by
      conv => lhs; rw [← List.take_append_drop st.nonslash t, a1.runEq]
      exact trailing_eq a1.maximal a1.slashes
    have hsl : t.length - st.nonslash = run.length := by omega
    have hpend : (t.drop st.nextPush).take (t.length - run.length / 2 - st.nextPush) =
        pending t st ++ run.take (run.length - run.length / 2) := by
      rw [pending_run a1]
      have hp : (pending t st).length = st.nonslash - st.nextPush := by
        simp [pending]; omega
      rw [show t.length - run.length / 2 - st.nextPush = (pending t st).length + (run.length - run.length / 2) by omega,
        List.take_length_add_append]
    obtain ⟨piece, p1, p2⟩ := h.slice (a := st.nextPush) (b := t.length - run.length / 2) (by omega) (by omega)
    rw [hpend] at p2
    obtain ⟨tr, t1, t2⟩ := a1.tr.push p2
    have hcut : T ++ (pending t st ++ run.take (run.length - run.length / 2)) = out.take (out.length - run.length / 2) := by
      rw [← a2, ← List.append_assoc]
      rw [show (T ++ pending t st ++ run).length - run.length / 2 =
        (T ++ pending t st).length + (run.length - run.length / 2) by simp only [List.length_append]; omega,
        List.take_length_add_append]
    rw [hcut] at t2
    obtain ⟨q, q1, q2⟩ := h.sliceFrom (n := t.length) (Nat.le_refl _)
    rw [List.drop_length] at q2
    rw [htr] at hlast1 hlast2 ⊢
    constructor
    · intro hev
      rw [hlast2 (by rintro ⟨h, _⟩; omega)]
      obtain ⟨b, b1, b2⟩ := t2.finish
      refine ⟨b, match st.stopChar with | some s => s | none => q, q, ?_, b2, q2⟩
      simp only [h0, if_true, h.length, hsl, p1, Res.ok_bind, t1, usub_of_le (show 1 ≤ t.length from hpos), Res.pure_eq]
      rw [if_neg (by omega), Res.ok_bind]
      simp only
      cases st.stopChar <;>
      simp only [q1, Res.ok_bind, b1, if_pos (show t.length - 1 < t.length by omega), Nat.sub_add_cancel hpos] <;> rfl
    · intro hodd
      simp only [h0, if_true, h.length, hsl, p1, Res.ok_bind, t1, Res.pure_eq]
      rw [if_pos hodd, Res.ok_bind]
      simp only
      cases hseen : st.seen with
      | false =>
        obtain ⟨u1, u2, _⟩ := a1.unseen hseen
        have hno : ∀ x ∈ t, stop x.1 = false := by
          intro x hx
          cases hb : stop x.1 with
          | false => rfl
          | true => rw [a1.seenIff.mpr ⟨x, hx, hb⟩] at hseen; cases hseen
        rw [hlast1 hodd hno]
        obtain ⟨b, b1, b2⟩ := h.part
        have := pending_run a1
        rw [u2, List.drop_zero] at this
        rw [u1, List.nil_append, ← this] at a2
        exact ⟨b, by simp [b1], by rw [← a2]; exact b2⟩
      | true =>
        obtain ⟨x, hx, hb⟩ := a1.seenIff.mp hseen
        rw [hlast2 (by rintro ⟨_, h⟩; rw [h x hx] at hb; cases hb)]
        obtain ⟨tr', t3, t4⟩ := t2.push q2
        rw [List.append_nil] at t4
        obtain ⟨b, b1, b2⟩ := t4.finish
        exact ⟨b, by simp [q1, t3, b1], b2⟩

/-- Separators of a file sequence. -/
def fileSep (extraStop : Str) (c : Char) : Bool := isWhitespace c || c == Char.ofNat 0 || extraStop.contains c

theorem fieldsFrom_append (sep : Char → Bool) (l cur t : List LChar) (h : ∀ x ∈ l, sep x.1 = false) :
    fieldsFrom sep cur (l ++ t) = fieldsFrom sep (cur ++ l) t := by
  induction l generalizing cur with
  | nil => simp
  | cons x l ih =>
    simp only [List.cons_append, fieldsFrom, h x (by simp)]
    rw [if_neg (by simp), ih _ (fun y hy => h y (by simp [hy]))]
    simp

theorem fields_step (sep : Char → Bool) (t : List LChar) :
    fields sep t = (if t.takeWhile (fun x => !sep x.1) = [] then [] else [t.takeWhile (fun x => !sep x.1)]) ++
      fields sep ((t.dropWhile (fun x => !sep x.1)).drop 1) := by
  have hsplit := List.takeWhile_append_dropWhile (p := fun x : LChar => !sep x.1) (l := t)
  have hfree : ∀ x ∈ t.takeWhile (fun x : LChar => !sep x.1), sep x.1 = false := by
    intro x hx
    have := List.mem_takeWhile_imp hx
    simpa using this
  conv => lhs; rw [← hsplit]
  rw [fields, fieldsFrom_append _ _ _ _ hfree, List.nil_append]
  cases hd : t.dropWhile (fun x => !sep x.1) with
  | nil => simp [fieldsFrom, fields]
  | cons x r =>
    have hx : sep x.1 = true := by
      have := List.head?_dropWhile_not (fun x : LChar => !sep x.1) t
      rw [hd] at this
      simpa using this
    simp only [fieldsFrom, hx, if_true, List.drop_succ_cons, List.drop_zero, fields]
    split <;> simp

/-- A list of blocks with the given texts, all parts of `P`. -/
def Blocks (P : Block) (ts : List (List LChar)) (bs : List Block) : Prop :=
  List.Forall₂ (fun t b => Part P t b) ts bs

theorem fileSeqLoop_spec (extraStop : Str) (hx : extraStop.contains '\\' = false) (n : Nat) (out : List Block)
    (h : i.At P t) (hf : Free '\\' t) (hn : t.length < n) :
    ∃ bs, fileSeqLoop extraStop n i out = .ok (out ++ bs) ∧ Blocks P (fields (fileSep extraStop) t) bs := by
  induction n generalizing i t out with
  | zero => omega
  | succ n ih =>
    have hsl : fileSep extraStop '\\' = false := by
      simp only [fileSep, hx]; decide
    have hs0 : fileSep extraStop (Char.ofNat 0) = true := by
      simp [fileSep]
    simp only [fileSeqLoop, h.length]
    by_cases hne : t = []
    · subst hne
      refine ⟨[], by simp, ?_⟩
      simp [fields, fieldsFrom, Blocks]
    · have hpos := List.length_pos_iff.mpr hne
      rw [if_pos hpos]
      obtain ⟨b, sc, post, e1, e2, e3⟩ := takeUntilUnquote_nul (fileSep extraStop) hsl hs0 h hne hf
      unfold fileSep at e1
      rw [e1, Res.ok_bind]
      simp only
      have hsuf : (t.dropWhile (fun x => !fileSep extraStop x.1)).drop 1 <:+ t :=
        (List.drop_suffix _ _).trans (List.dropWhile_suffix _)
      have hlen : ((t.dropWhile (fun x => !fileSep extraStop x.1)).drop 1).length < t.length := by
        have := (List.dropWhile_sublist (fun x : LChar => !fileSep extraStop x.1) (l := t)).length_le
        rw [List.length_drop]; omega
      have hf' : Free '\\' ((t.dropWhile (fun x => !fileSep extraStop x.1)).drop 1) :=
        fun x hx => hf x (hsuf.subset hx)
      rw [fields_step]
      by_cases hb : t.takeWhile (fun x => !fileSep extraStop x.1) = []
      · rw [if_neg (by rw [e2.len, hb]; simp)]
        obtain ⟨bs, f1, f2⟩ := ih out e3 hf' (by omega)
        exact ⟨bs, f1, by rw [if_pos hb]; exact f2⟩
      · rw [if_pos (by rw [e2.len]; exact List.length_pos_iff.mpr hb)]
        obtain ⟨c, c1, c2⟩ := e2.at.part
        rw [c1, Res.ok_bind]
        obtain ⟨bs, f1, f2⟩ := ih (out ++ [c]) e3 hf' (by omega)
        refine ⟨c :: bs, by rw [f1]; simp, ?_⟩
        rw [if_neg hb]
        refine List.Forall₂.cons ?_ f2
        exact ⟨c2.ltext, c2.wf, c2.solid, fun v hv => e2.sens v (c2.sens v hv),
          fun hne v hv => c2.sens_all hne v (e2.sens_all hne v hv), fun m => c2.mono (e2.mono m)⟩

theorem fields_blanks (extraStop : Str) (w t : List LChar) (hw : ∀ x ∈ w, lblank x = true) :
    fields (fileSep extraStop) (w ++ t) = fields (fileSep extraStop) t := by
  induction w with
  | nil => rfl
  | cons x w ih =>
    have hx : fileSep extraStop x.1 = true := by
      have := hw x (by simp)
      rw [lblank_iff] at this
      rcases this with e | e <;> simp [fileSep, e, isWhitespace]
    rw [List.cons_append, fields, fieldsFrom, if_pos hx, if_pos rfl]
    exact ih (fun y hy => hw y (by simp [hy]))

theorem parseFileSeq_spec (extraStop : Str) (hx : extraStop.contains '\\' = false) (h : i.At P t) (hf : Free '\\' t) :
    ∃ bs, parseFileSeq extraStop i = .ok bs ∧ Blocks P (fields (fileSep extraStop) t) bs := by
  obtain ⟨r, w, e1, e2, _⟩ := whitespace_at h
  have hf' : Free '\\' (t.dropWhile lblank) := fun x hx => hf x ((List.dropWhile_suffix _).subset hx)
  obtain ⟨bs, f1, f2⟩ := fileSeqLoop_spec extraStop hx ((t.dropWhile lblank).length + 1) [] e2 hf' (Nat.lt_succ_self _)
  refine ⟨bs, ?_, ?_⟩
  · simp only [parseFileSeq, e1, Res.ok_bind, e2.length, f1, List.nil_append]
  · conv => lhs; rw [← List.takeWhile_append_dropWhile (p := lblank) (l := t)]
    rw [fields_blanks _ _ _ (fun x hx => List.mem_takeWhile_imp hx)]
    exact f2

end Hastur
