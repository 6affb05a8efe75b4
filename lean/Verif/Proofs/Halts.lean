import Verif.Spec.Halts
/-
Lemmas: no loop of the parsers runs for ever, whatever the text.  Nothing is assumed about the characters: all arguments
are about the lengths of spans, which every slicing function keeps track of.
-/
namespace Hastur

open Res

/-- The computation does not run out of rounds, and its value, if there is one, satisfies `Q`. -/
def Res.Sat {α : Type} (Q : α → Prop) (x : Res α) : Prop := x ≠ .fuel ∧ ∀ a, x = .ok a → Q a

/-- The computation does not run out of rounds. -/
def Res.Halts {α : Type} (x : Res α) : Prop := x ≠ .fuel

/-- A statement about the rest and the output of a parser that succeeds. -/
def IRes.On {α : Type} (Q : Span → α → Prop) : IRes α → Prop
  | .done r a => Q r a
  | .err _ => True

namespace Res.Sat

variable {α β : Type} {Q : α → Prop} {R : β → Prop}

theorem halts {x : Res α} (h : x.Sat Q) : x.Halts := h.1

theorem imp {x : Res α} (h : x.Sat Q) {Q' : α → Prop} (hq : ∀ a, Q a → Q' a) : x.Sat Q' := ⟨h.1, fun a e => hq a (h.2 a e)⟩

theorem bind {x : Res α} {f : α → Res β} (h : x.Sat Q) (hf : ∀ a, x = .ok a → Q a → (f a).Sat R) : (x >>= f).Sat R := by
  cases x with
  | ok a => exact hf a rfl (h.2 a rfl)
  | panic p => exact ⟨by simp, by simp⟩
  | fuel => exact absurd rfl h.1

theorem map {x : Res α} {f : α → β} (h : x.Sat Q) (hf : ∀ a, Q a → R (f a)) : (f <$> x).Sat R := by
  cases x with
  | ok a => exact ⟨by simp, fun b e => by cases e; exact hf a (h.2 a rfl)⟩
  | panic p => exact ⟨by simp, by simp⟩
  | fuel => exact absurd rfl h.1

theorem ok {a : α} (h : Q a) : (Res.ok a).Sat Q := ⟨by simp, fun b e => by cases e; exact h⟩

theorem panic {p : Panic} : (Res.panic p : Res α).Sat Q := ⟨by simp, by simp⟩

theorem of_halts {x : Res α} (h : x.Halts) : x.Sat fun _ => True := ⟨h, fun _ _ => trivial⟩

theorem ite {c : Prop} [Decidable c] {x y : Res α} (hx : c → x.Sat Q) (hy : ¬ c → y.Sat Q) : (if c then x else y).Sat Q := by
  by_cases h : c
  · rw [if_pos h]; exact hx h
  · rw [if_neg h]; exact hy h

end Res.Sat

/-- A parser does not run out of rounds, and when it succeeds its rest and output satisfy `Q`. -/
abbrev Res.SatP {α : Type} (Q : Span → α → Prop) (x : PRes α) : Prop := Res.Sat (IRes.On Q) x

namespace Res.SatP

variable {α β : Type} {Q : Span → α → Prop} {R : Span → β → Prop}

theorem imp {x : PRes α} (h : x.SatP Q) {Q' : Span → α → Prop} (hq : ∀ r a, Q r a → Q' r a) : x.SatP Q' :=
  Sat.imp h fun a ha => by cases a with
    | done r a => exact hq r a ha
    | err _ => trivial

theorem andThen {x : PRes α} {f : Span → α → PRes β} (h : x.SatP Q) (hf : ∀ r a, x = .ok (.done r a) → Q r a → (f r a).SatP R) :
    (x.andThen f).SatP R := by
  refine Sat.bind h fun a e ha => ?_
  cases a with
  | done r a => exact hf r a e ha
  | err _ => exact .ok trivial

theorem done {i : Span} {a : α} (h : Q i a) : (Res.done i a).SatP Q := Sat.ok h

theorem err {e : NErr} : (Res.ok (.err e) : PRes α).SatP Q := Sat.ok trivial

theorem mapP {x : PRes α} {f : α → β} (h : x.SatP Q) (hf : ∀ r a, Q r a → R r (f a)) : (x.mapP f).SatP R :=
  h.andThen fun r a _ ha => .done (hf r a ha)

theorem orElse {x y : PRes α} (hx : x.SatP Q) (hy : (∃ k, x = .ok (.err (.error k))) → y.SatP Q) : (Res.orElse x y).SatP Q := by
  refine Sat.bind hx fun a e ha => ?_
  cases a with
  | done r a => exact Sat.ok ha
  | err k =>
    cases k with
    | error k => exact hy ⟨k, e⟩
    | failure k => exact Sat.ok trivial

theorem returnError {x : PRes α} (hx : x.SatP Q) : x.returnError.SatP Q := by
  refine Sat.bind hx fun a _ ha => ?_
  cases a with
  | done r a => exact Sat.ok ha
  | err k => cases k <;> exact Sat.ok trivial

end Res.SatP

/-! ### Spans -/

theorem usub_sat (a b : Nat) : (usub a b).Sat fun n => n + b = a := by
  unfold usub
  split
  · exact .ok (by omega)
  · exact .panic

theorem rassert_sat (b : Bool) : (rassert b).Sat fun _ => b = true := by
  unfold rassert
  split
  · exact .ok (by assumption)
  · exact .panic

theorem runwrap_sat {α : Type} (o : Option α) : (runwrap o).Sat fun a => o = some a := by
  cases o with
  | none => exact .panic
  | some a => exact .ok rfl

theorem revalLoop_sat (cs : List CRef) : ∀ start offset, (Span.revalLoop cs start offset).Sat fun p =>
    ∃ k c rest, p.1 = start + k ∧ cs.drop k = c :: rest ∧ p.2 < c.length := by
  induction cs with
  | nil => intro _ _; exact .panic
  | cons c cs ih =>
    intro start offset
    unfold Span.revalLoop
    refine .ite (fun _ => (ih _ _).imp ?_) fun h => .ok ⟨0, c, cs, rfl, rfl, by simpa using h⟩
    rintro ⟨a, b⟩ ⟨k, d, rest, h1, h2, h3⟩
    exact ⟨k + 1, d, rest, by simp only at h1 ⊢; omega, by simpa using h2, h3⟩

theorem revalidate_sat (s : Span) : s.revalidate.Sat fun r => r.length = s.length ∧ r.parent = s.parent ∧ r.Norm := by
  unfold Span.revalidate
  refine .ite (fun h => .ok ⟨rfl, rfl, .inl h⟩) fun _ => (revalLoop_sat _ _ _).bind ?_
  rintro ⟨a, b⟩ _ ⟨k, c, rest, h1, h2, h3⟩
  refine .ok ⟨rfl, rfl, .inr ⟨c, rest, ?_, h3⟩⟩
  simp only [Span.contents] at h2 ⊢
  rw [List.drop_drop] at h2
  simp only at h1
  rw [h1, h2]

/-- Nothing happens to a span whose offset is right already. -/
theorem revalidate_norm {s : Span} (h : s.Norm) : s.revalidate = .ok s := by
  unfold Span.revalidate
  rcases h with h | ⟨c, cs, h1, h2⟩
  · rw [if_pos h]
  · split
    · rfl
    · rw [h1, Span.revalLoop, if_neg (by omega)]
      rfl

theorem sliceFrom_sat (s : Span) (n : Nat) : (s.sliceFrom n).Sat fun r => r.length + n = s.length ∧ r.Norm := by
  refine (usub_sat _ _).bind fun l _ hl => (revalidate_sat _).imp fun r hr => ⟨?_, hr.2.2⟩
  rw [hr.1]; exact hl

theorem sliceFrom_zero {s : Span} (h : s.Norm) : s.sliceFrom 0 = .ok s := by
  unfold Span.sliceFrom usub
  simp only [Nat.zero_le, if_true, Nat.sub_zero, ok_bind, Nat.add_zero]
  exact revalidate_norm h

theorem slice_sat (s : Span) (a b : Nat) : (s.slice a b).Sat fun r => r.length + a = b ∧ r.Norm := by
  refine (usub_sat _ _).bind fun l _ hl => (revalidate_sat _).imp fun r hr => ⟨?_, hr.2.2⟩
  rw [hr.1]; exact hl

theorem takeSplit_sat (s : Span) (n : Nat) :
    (s.takeSplit n).Sat fun p => p.1.length + n = s.length ∧ p.1.Norm ∧ p.2 = s.sliceTo n :=
  (rassert_sat _).bind fun _ _ _ => (sliceFrom_sat _ _).bind fun _ _ ha => .ok ⟨ha.1, ha.2, rfl⟩

theorem findIn_sat {α : Type} (p : α → Bool) (xs : List α) (crash : Bool) :
    (Span.findIn p xs crash).Sat fun o => xs.find? p = o := by
  unfold Span.findIn
  cases h : xs.find? p with
  | some a => exact .ok rfl
  | none => exact .ite (fun _ => .panic) fun _ => .ok rfl

theorem findChar_sat (s : Span) (p : Char → Bool) :
    (s.findChar p).Sat fun o => (Span.withIndices 0 s.chars.items).find? (fun ic => p ic.2) = o := findIn_sat _ _ _

/-- Splitting at a character: either it is found, or everything is taken. -/
theorem splitAtPosition_sat (s : Span) (p : Char → Bool) : (s.splitAtPosition p).Sat fun x =>
    (∃ k c, s.findChar p = .ok (some (k, c)) ∧ s.sliceFrom k = .ok x.1 ∧ x.1.length + k = s.length ∧ x.1.Norm ∧ x.2 = s.sliceTo k) ∨
      (s.findChar p = .ok none ∧ x.1 = s.emptyAtEnd ∧ x.2 = s) := by
  refine (findChar_sat s p).bind fun o ho _ => ?_
  cases o with
  | none => exact .ok (.inr ⟨ho, rfl, rfl⟩)
  | some kc => exact (sliceFrom_sat _ _).bind fun r hr h => .ok (.inl ⟨kc.1, kc.2, ho, hr, h.1, h.2, rfl⟩)

theorem limitBytes_zero (cs : List Char) (crash : Bool) : limitBytes 0 cs crash = ⟨[], false⟩ := by
  cases cs <;> rfl

theorem chars_zero {s : Span} (h : s.length = 0) : s.chars = ⟨[], false⟩ := by
  unfold Span.chars
  rw [h]
  split
  · rfl
  · exact limitBytes_zero _ _

theorem emptyAtEnd_norm (s : Span) : s.emptyAtEnd.Norm := .inl rfl

theorem mismatch_sat (crash : Bool) (as : List Char) : ∀ bs, (Span.mismatch crash as bs).Sat fun _ => True := by
  induction as with
  | nil => intro bs; exact .ite (fun _ => .panic) fun _ => .ok trivial
  | cons a as ih =>
    intro bs
    cases bs with
    | nil => exact .ok trivial
    | cons b bs => exact .ite (fun _ => .ok trivial) fun _ => ih bs

theorem compare_sat (s : Span) (t : Str) : (s.compare t).Sat fun _ => True :=
  (mismatch_sat _ _ _).bind fun _ _ _ => .ite (fun _ => .ok trivial) fun _ => .ite (fun _ => .ok trivial) fun _ => .ok trivial

theorem compareNoCase_sat (s : Span) (t : Str) : (s.compareNoCase t).Sat fun _ => True :=
  (mismatch_sat _ _ _).bind fun _ _ _ => .ite (fun _ => .ok trivial) fun _ => .ite (fun _ => .ok trivial) fun _ => .ok trivial

theorem writeAt_sat (bs : List UInt8) : ∀ (buf : List UInt8) (i : Nat), (Span.writeAt buf i bs).Sat fun _ => True := by
  induction bs with
  | nil => intro buf i; exact .ok trivial
  | cons b bs ih => intro buf i; exact .ite (fun _ => ih _ _) fun _ => .panic

theorem fillBuffer_sat (n : Nat) (crash : Bool) (cs : List (Nat × Char)) : ∀ (k : Nat) (buf : List UInt8),
    (Span.fillBuffer n crash k buf cs).Sat fun _ => True := by
  induction cs with
  | nil => intro k buf; exact .ite (fun _ => .ite (fun _ => .panic) fun _ => .panic) fun _ => .ok trivial
  | cons c cs ih =>
    intro k buf
    exact .ite (fun _ => (writeAt_sat _ _ _).bind fun _ _ _ => ih _ _) fun _ => .ok trivial

theorem searchLoop_sat (needle : List UInt8) (crash : Bool) (cs : List (Nat × Char)) : ∀ (k : Nat) (buf : List UInt8),
    (Span.searchLoop needle crash k buf cs).Sat fun o => o ≠ some 0 := by
  induction cs with
  | nil => intro k buf; exact .ite (fun _ => .panic) fun _ => .ok (by simp)
  | cons c cs ih =>
    intro k buf
    exact .ite (fun _ => (usub_sat _ _).bind fun _ _ _ => .ok (by simp)) fun _ => ih _ _

theorem findSubstring_sat (s : Span) (t : Str) : (s.findSubstring t).Sat fun _ => True := by
  unfold Span.findSubstring
  exact .ite (fun _ => .ok trivial) fun _ => (fillBuffer_sat _ _ _ _ _).bind fun _ _ _ =>
    .ite (fun _ => .ok trivial) fun _ => (searchLoop_sat _ _ _ _ _).imp fun _ _ => trivial

theorem offsetTo_sat (s r : Span) : (s.offsetTo r).Sat fun _ => True := by
  refine (rassert_sat _).bind fun _ _ _ => (rassert_sat _).bind fun _ _ _ => .ite (fun _ => (usub_sat _ _).imp fun _ _ => trivial) fun _ => ?_
  split
  · exact .panic
  · exact (usub_sat _ _).bind fun _ _ _ => .ok trivial

theorem firstChar_sat (s : Span) : (Nom.firstChar s).Sat fun o => s.chars.items.head? = o := by
  unfold Nom.firstChar
  split
  · rename_i h; rw [h]; exact .ok rfl
  · exact .panic
  · rename_i h; rw [h]; exact .ok rfl

theorem all_sat (s : CStream) : s.all.Sat fun cs => s.items = cs := .ite (fun _ => .panic) fun _ => .ok rfl

theorem firstSegment_sat (s : Span) : s.firstSegment.Sat fun _ => True := by
  unfold Span.firstSegment
  split
  · exact .ok trivial
  · exact .panic
  · exact .ok trivial

theorem allSegments_sat (s : Span) : s.allSegments.Sat fun _ => True := .ite (fun _ => .panic) fun _ => .ok trivial

theorem spanSegs_zero (o : Nat) (ts : List LStr) (crash : Bool) : spanSegs o 0 ts crash = ⟨[], false⟩ := by
  cases ts <;> simp [spanSegs]

theorem location_sat (s : Span) : s.location.Sat fun o => s.length = 0 → o = none := by
  refine (firstSegment_sat s).bind fun o ho _ => .ok fun h => ?_
  have : s.segments = ⟨[], false⟩ := by
    unfold Span.segments
    rw [h]
    exact spanSegs_zero _ _ _
  unfold Span.firstSegment at ho
  rw [this] at ho
  cases ho
  rfl

/-! ### Blocks -/

theorem dropRefs_sat (d : Nat) (cs : List CRef) : ∀ o, CRef.depthList cs ≤ d → (dropRefs cs o).Sat fun r => CRef.depthList r ≤ d := by
  induction cs with
  | nil => intro o _; exact .panic
  | cons c cs ih =>
    intro o h
    simp only [CRef.depthList] at h
    unfold dropRefs
    refine .ite (fun _ => ih _ (by omega)) fun _ => .ok ?_
    simp only [CRef.depthList]
    have : ∀ (a b : Nat) (n : Node), CRef.depth ⟨a, b, n⟩ = n.depth := fun _ _ _ => rfl
    obtain ⟨a, b, n⟩ := c
    simp only [this] at h ⊢
    exact h

theorem takeRefs_sat (d : Nat) (cs : List CRef) : ∀ o, CRef.depthList cs ≤ d → (takeRefs cs o).Sat fun r => CRef.depthList r ≤ d := by
  induction cs with
  | nil => intro o _; exact .panic
  | cons c cs ih =>
    intro o h
    simp only [CRef.depthList] at h
    unfold takeRefs
    refine .ite (fun _ => .ok ?_) fun _ => (ih _ (by omega)).map fun r hr => ?_
    · obtain ⟨a, b, n⟩ := c
      show max n.depth 0 ≤ d
      have : CRef.depth ⟨a, b, n⟩ = n.depth := rfl
      omega
    · simp only [CRef.depthList]; omega

theorem btake_sat (s : Str) : ∀ n, (btake n s).Sat fun _ => True := by
  induction s with
  | nil => intro n; cases n with
    | zero => exact .ok trivial
    | succ n => exact .panic
  | cons c s ih => intro n; cases n with
    | zero => exact .ok trivial
    | succ n => exact .ite (fun _ => (ih _).map fun _ _ => trivial) fun _ => .panic

theorem bdrop_sat (s : Str) : ∀ n, (bdrop n s).Sat fun _ => True := by
  induction s with
  | nil => intro n; cases n with
    | zero => exact .ok trivial
    | succ n => exact .panic
  | cons c s ih => intro n; cases n with
    | zero => exact .ok trivial
    | succ n => exact .ite (fun _ => ih _) fun _ => .panic

theorem lslice_sat (s : LStr) (a n : Nat) : (s.slice a n).Sat fun _ => True :=
  (rassert_sat _).bind fun _ _ _ => (rassert_sat _).bind fun _ _ _ => (btake_sat _ _).bind fun _ _ _ =>
    (bdrop_sat _ _).bind fun _ _ _ => (btake_sat _ _).bind fun _ _ _ => .ok trivial

theorem simplifyList_sat {d : Nat} {simp : CRef → Res CRef}
    (h : ∀ c, CRef.depth c ≤ d → c.length ≠ 0 → (simp c).Sat fun c' => c'.length = c.length) (cs : List CRef) :
    CRef.depthList cs ≤ d → (simplifyList simp cs).Sat fun r => (∀ c ∈ r, 0 < c.length) ∧
      (r.map (·.length)).sum = (cs.map (·.length)).sum := by
  induction cs with
  | nil => intro _; exact .ok ⟨by simp, rfl⟩
  | cons c cs ih =>
    intro hd
    simp only [CRef.depthList] at hd
    unfold simplifyList
    refine .ite (fun h0 => (ih (by omega)).imp fun r hr => ⟨hr.1, by simp [hr.2, h0]⟩) fun h0 => ?_
    refine (h c (by omega) h0).bind fun c' _ hc => (ih (by omega)).bind fun r _ hr => .ok ⟨?_, by simp [hr.2, hc]⟩
    intro x hx
    rcases List.mem_cons.mp hx with rfl | hx
    · omega
    · exact hr.1 x hx

theorem simplifyRef_sat (d : Nat) : ∀ c : CRef, CRef.depth c ≤ d → (simplifyRef d c).Sat fun c' => c'.length = c.length := by
  induction d with
  | zero =>
    intro c h
    unfold simplifyRef
    split
    · exact (lslice_sat _ _ _).bind fun _ _ _ => .ok rfl
    · rename_i b hb
      obtain ⟨o, l, n⟩ := c
      cases hb
      exact absurd h (by show ¬ (Block.depth b + 1 ≤ 0); omega)
    · exact .ok rfl
  | succ d ih =>
    intro c h
    unfold simplifyRef
    split
    · exact (lslice_sat _ _ _).bind fun _ _ _ => .ok rfl
    · rename_i b hb
      obtain ⟨o, l, n⟩ := c
      cases hb
      have hb : CRef.depthList b.content ≤ d := by
        have h : Block.depth b + 1 ≤ d + 1 := h
        obtain ⟨s, content⟩ := b
        simpa [Block.depth] using h
      exact (dropRefs_sat d _ _ hb).bind fun k _ hk => (takeRefs_sat d _ _ hk).bind fun k' _ hk' =>
        (simplifyList_sat (fun c hc _ => ih c hc) _ hk').bind fun _ _ _ => .ok rfl
    · exact .ok rfl

/-- A block as `Block::new` makes it: no reference is empty. -/
theorem simplify_sat (b : Block) : b.simplify.Sat fun b' => (∀ c ∈ b'.content, 0 < c.length) ∧ b'.len = b.len :=
  (simplifyList_sat (fun c hc _ => simplifyRef_sat _ c hc) _ (Nat.le_refl _)).bind fun _ _ h => .ok ⟨h.1, h.2⟩

theorem new_sat (sens : Sens) (cs : List CRef) :
    (Block.new sens cs).Sat fun b => (∀ c ∈ b.content, 0 < c.length) ∧ b.len = (cs.map (·.length)).sum := simplify_sat _

theorem span_norm {b : Block} (h : ∀ c ∈ b.content, 0 < c.length) : b.span.Norm := by
  cases hc : b.content with
  | nil =>
    left
    show b.len = 0
    unfold Block.len
    rw [hc]; rfl
  | cons c cs => exact .inr ⟨c, cs, by simp [Span.contents, Block.span, hc], h c (by rw [hc]; simp)⟩

theorem collectRefs_sat (rest : List CRef) : ∀ (c : CRef) (n : Nat), (Span.collectRefs c rest n).Sat fun _ => True := by
  induction rest with
  | nil => intro c n; exact .ite (fun _ => .panic) fun _ => .ok trivial
  | cons r rest ih => intro c n; exact .ite (fun _ => (ih _ _).map fun _ _ => trivial) fun _ => .ok trivial

theorem coveredRefs_sat (s : Span) : s.coveredRefs.Sat fun _ => True := by
  unfold Span.coveredRefs
  split
  · exact .panic
  · exact (rassert_sat _).bind fun _ _ _ => collectRefs_sat _ _ _

theorem toNewBlock_sat (s : Span) : s.toNewBlock.Sat fun b => ∀ c ∈ b.content, 0 < c.length :=
  .ite (fun _ => .ok (by intro c hc; cases hc)) fun _ => (coveredRefs_sat s).bind fun _ _ _ => (new_sat _ _).imp fun _ h => h.1

theorem toContentReference_sat (s : Span) : s.toContentReference.Sat fun _ => True :=
  (toNewBlock_sat s).bind fun _ _ _ => .ok trivial

theorem pushAll_sat (b : Block) (s : Span) : (b.pushAll s).Sat fun _ => True :=
  .ite (fun _ => .ok trivial) fun _ => (coveredRefs_sat s).bind fun _ _ _ => .ok trivial

theorem spanString_sat (s : Span) : s.intoString.Sat fun _ => True :=
  .ite (fun _ => .ok trivial) fun _ => (all_sat _).imp fun _ _ => trivial

theorem blockString_sat (b : Block) : b.intoString.Sat fun _ => True := (all_sat _).imp fun _ _ => trivial

end Hastur
