import Verif.Spec.Tree
import Verif.Proofs.Exact
import Verif.Proofs.Demo
/-
How the trees of the repository's property test are printed and read back (C73).
-/
namespace Hastur

open Res

/-! ### Segments of a block with one reference -/

theorem SStream.cons_length (t : LStr) (s : SStream) : (SStream.cons t s).items.length = s.items.length + 1 := by
  simp [SStream.cons]

theorem spanSegs_length (ts : List LStr) (crash : Bool) (o l : Nat) :
    (spanSegs o l ts crash).items.length ≤ ts.length := by
  induction ts generalizing o l with
  | nil => cases l <;> simp [spanSegs]
  | cons t ts ih =>
    cases l with
    | zero => simp [spanSegs]
    | succ l =>
      rw [spanSegs]
      split
      · exact Nat.le_trans (ih _ _) (by simp)
      · split
        · split
          · rw [SStream.cons_length]; have := ih 0 (l + 1 - LStr.len ‹_›); simp; omega
          · simp
        · simp

/-- The text of a window of a block with one reference is one segment. -/
theorem Span.allSegments_one {s : Span} (h : s.Good) (hm : Block.Mono s.parent) (hp : s.parent.content.length ≤ 1)
    {l : Location} {t : Str} (ht : s.ltext = locate l t) (h0 : t ≠ []) : s.allSegments = .ok [⟨l, t⟩] := by
  obtain ⟨ts, h1, h2, h3, _⟩ := Span.allSegments_mono h hm
  have hc := Span.segments_mono h hm
  have hts : ts = s.segments.items := by
    have : s.allSegments = .ok s.segments.items := by simp [Span.allSegments, hc]
    rw [h1] at this; injection this
  have hlen : ts.length ≤ 1 := by
    rw [hts]
    unfold Span.segments
    refine Nat.le_trans (spanSegs_length _ _ _ _) ?_
    have hw := Span.wf_contents h.1
    rw [Block.mono_eq] at hm
    have := (CRef.segmentsList_mono _ hw (CRef.monoList_drop _ hm)).2
    refine Nat.le_trans this ?_
    simp only [Span.contents, List.length_drop]
    omega
  rw [ht] at h2
  obtain ⟨c, t, rfl⟩ := List.exists_cons_of_ne_nil h0
  match ts, hlen with
  | [], _ => simp [segsText, locate] at h2
  | [⟨l', t'⟩], _ =>
    rw [h1]
    simp only [segsText_cons, segsText_nil, List.append_nil, LStr.ltext] at h2
    have e : t' = c :: t := by
      have := congrArg (List.map Prod.fst) h2
      simpa using this
    subst e
    rw [locate, locate] at h2
    injection h2 with h2 _
    injection h2 with _ h2
    rw [h2]

/-! ### Reading to a given syntax tree -/

/-- Every span with this text is read as the syntax tree, with `n` levels of nesting. -/
def GivesAst (P : Block) (n : Nat) (t : List LChar) (a : Ast) : Prop :=
  ∀ i : Span, i.At P t → ∃ r, parseAstF n i = .ok (.done r a) ∧ r.At P []

/-- Text is one constant. -/
theorem givesAst_text {P : Block} (hm : Block.Mono P) (hp : P.content.length ≤ 1) (n : Nat) {l : Location} {s : Str}
    (h0 : s ≠ []) (hd : '$' ∉ s) : GivesAst P (n + 1) (locate l s) (.constant l ⟨l, s⟩) := by
  intro i h
  rw [parseAstF, Span.location_mono h.good (by rw [h.parent]; exact hm), h.ltext]
  obtain ⟨c, s', rfl⟩ := List.exists_cons_of_ne_nil h0
  simp only [Res.ok_bind, locate, List.head?_cons, Option.map_some]
  have hl : i.length = s'.length + 1 := by rw [h.length]; simp
  rw [parseAstLoop, if_pos (by omega)]
  have hu := (Nom.takeUntil_at h (c := '$') (by decide)).2 (by simpa using hd)
  obtain ⟨r, e1, e2⟩ := Nom.rest_at h
  have hs := Span.allSegments_one h.good (by rw [h.parent]; exact hm) (by rw [h.parent]; exact hp) h.ltext h0
  rw [hu, err_andThen, error_orElse]
  simp only [e1, done_mapP, done_andThen, hs, Res.ok_bind]
  exact ⟨r, rfl, e2⟩

/-- What a parsed bracketed reference makes of the whole text. -/
theorem givesAst_paren {P : Block} (hm : Block.Mono P) (n : Nat) {l l₁ : Location} {inner : List LChar} {a : Ast}
    (ha : a.isEmpty = false)
    (hv : ∀ i : Span, i.At P inner → ∃ r, advancedVar (parseAstF n) l '(' ')' i = .ok (.done r a) ∧ r.At P []) :
    GivesAst P (n + 1) (('$', l) :: ('(', l₁) :: inner) a := by
  intro i h
  rw [parseAstF, Span.location_mono h.good (by rw [h.parent]; exact hm), h.ltext]
  simp only [Res.ok_bind, List.head?_cons, Option.map_some]
  have hl : i.length = inner.length + 2 := by rw [h.length]; simp
  rw [parseAstLoop, if_pos (by omega)]
  obtain ⟨r, q, e1, e2, e3⟩ := (Nom.takeUntil_at h (c := '$') (by decide)).1 (by simp [textOf])
  rw [List.dropWhile_cons_of_neg (by simp)] at e2
  rw [List.takeWhile_cons_of_neg (by simp)] at e3
  obtain ⟨r', q', e4, e5, e6⟩ := (Nom.tag_at e2 (w := ['$']) (by unfold AsciiS; decide)).1 (by simp [textOf])
  simp only [List.length_singleton, List.drop_succ_cons, List.drop_zero, List.take_succ_cons, List.take_zero] at e5 e6
  have hloc := Span.location_mono e6.good (by rw [e6.parent]; exact hm)
  rw [e6.ltext] at hloc
  obtain ⟨ts, g1, g2, g4, g3⟩ := Span.allSegments_mono e3.good (by rw [e3.parent]; exact hm)
  rw [e3.ltext] at g2
  have hts : ts = [] := by
    cases ts with
    | nil => rfl
    | cons s ts =>
      rw [segsText_cons] at g2
      have hs := g4 s (by simp)
      have := congrArg List.length g2
      simp at this
      exact absurd (List.length_eq_zero_iff.mp (by simpa using this.1)) hs
  subst hts
  simp only [e1, done_andThen, e4, hloc, Res.ok_bind, List.head?_cons, Option.map_some, runwrap, Res.done, done_orElse, g1]
  have hp : ∃ r, parseVarRef (parseAstF n) l r' = .ok (.done r a) ∧ r.At P [] := by
    unfold parseVarRef
    rw [Nom.eof_at e5, if_neg (by simp)]
    simp only [err_mapP, error_orElse]
    rw [(Nom.tag_at e5 (w := ['$']) (by unfold AsciiS; decide)).2 (by
      intro hp
      simp only [textOf_cons, List.cons_prefix_cons] at hp
      exact absurd hp.1 (by decide))]
    simp only [err_andThen, error_orElse]
    obtain ⟨r, k1, k2⟩ := (Nom.char_at e5 (c := '(') (by decide)).1 _ _ rfl
    obtain ⟨r2, k3, k4⟩ := hv r k2
    rw [k1]
    simp only [done_andThen, k3, done_orElse]
    exact ⟨r2, rfl, k4⟩
  obtain ⟨r2, k1, k2⟩ := hp
  rw [k1, done_andThen, hl, parseAstLoop, if_neg (by rw [k2.length]; simp)]
  refine ⟨r2, ?_, k2⟩
  simp [Res.done, Ast.collapsingConcat, ha, mapP, andThen]

/-- A reference: nothing of its text begins like a call. -/
theorem advancedVar_ref {P : Block} (n : Nat) {l l₂ : Location} {name : List LChar} {a : Ast} (hb : Balanced name)
    (hc : calls name = none) (hg : GivesAst P n name a) {i : Span} (h : i.At P (name ++ [(')', l₂)])) :
    ∃ r, advancedVar (parseAstF n) l '(' ')' i = .ok (.done r (.varRef l a)) ∧ r.At P [] := by
  unfold advancedVar
  rw [h.chars]
  simp only [Span.withIndices_eq 0 h.ascii]
  rw [show (1 : Nat) = 0 + 1 from rfl, balance_eq, closing_of_balanced hb]
  obtain ⟨r, q, s1, s2, s3⟩ := h.takeSplit (n := name.length + 1) (by simp)
  rw [List.drop_eq_nil_of_le (by simp)] at s2
  rw [List.take_of_length_le (by simp)] at s3
  have s4 := s3.sliceTo (n := name.length) (by simp)
  rw [List.take_left'] at s4
  · simp only [Option.map_some, Nat.zero_add, s1, Res.ok_bind]
    have hl : q.length = name.length + 1 := by rw [s3.length]; simp
    have hu : usub q.length 1 = .ok name.length := by simp [usub, hl]
    rw [hu]
    simp only [Res.ok_bind]
    rw [(functionCall_at s4 _ l).1 hc]
    simp only [Res.ok_bind, if_true]
    obtain ⟨r', e1, e2⟩ := hg _ s4
    rw [e1, done_andThen]
    exact ⟨r, rfl, s2⟩
  · rfl

/-- A call. -/
theorem advancedVar_call {P : Block} (n : Nat) {l l₂ : Location} {name arg : List LChar} {f : Fn} {a : Ast}
    (hb : Balanced name) (hc : calls name = some (f, arg))
    (hg : ∀ j : Span, j.At P arg → ∃ r, fnParser (parseAstF n) l f j = .ok (.done r a) ∧ r.At P [])
    {i : Span} (h : i.At P (name ++ [(')', l₂)])) :
    ∃ r, advancedVar (parseAstF n) l '(' ')' i = .ok (.done r a) ∧ r.At P [] := by
  unfold advancedVar
  rw [h.chars]
  simp only [Span.withIndices_eq 0 h.ascii]
  rw [show (1 : Nat) = 0 + 1 from rfl, balance_eq, closing_of_balanced hb]
  obtain ⟨r, q, s1, s2, s3⟩ := h.takeSplit (n := name.length + 1) (by simp)
  rw [List.take_of_length_le (by simp)] at s3
  have s4 := s3.sliceTo (n := name.length) (by simp)
  rw [List.take_left'] at s4
  · simp only [Option.map_some, Nat.zero_add, s1, Res.ok_bind]
    have hl : q.length = name.length + 1 := by rw [s3.length]; simp
    have hu : usub q.length 1 = .ok name.length := by simp [usub, hl]
    rw [hu]
    simp only [Res.ok_bind]
    obtain ⟨j, e1, e2⟩ := (functionCall_at s4 (parseAstF n) l).2 _ _ hc (fun j hj q => by
      obtain ⟨r, e, _⟩ := hg j hj
      rw [e]; rfl)
    obtain ⟨r', g1, g2⟩ := hg j e2
    rw [e1, g1]
    exact ⟨r', rfl, g2⟩
  · rfl

/-! ### Printed trees -/

namespace Tree

theorem word_of_alphanum {s : Str} (h : Alphanum s) : Word s := by
  refine ⟨h.1, fun c hc => ?_⟩
  have hr : ∀ lo hi : Char, lo.val < 128 → hi.val < 128 → lo ≤ c ∧ c ≤ hi → isAscii c = true := by
    intro lo hi _ h2 h3
    simp only [isAscii, decide_eq_true_eq]
    exact Nat.lt_of_le_of_lt (Char.le_def.mp h3.2) h2
  rcases h.2 c hc with h | h | h
  · refine ⟨hr 'a' 'z' (by decide) (by decide) h, ?_⟩
    intro hm
    simp only [List.mem_cons, List.not_mem_nil, or_false] at hm
    rcases hm with rfl | rfl | rfl | rfl | rfl | rfl | rfl | rfl | rfl <;> revert h <;> decide
  · refine ⟨hr 'A' 'Z' (by decide) (by decide) h, ?_⟩
    intro hm
    simp only [List.mem_cons, List.not_mem_nil, or_false] at hm
    rcases hm with rfl | rfl | rfl | rfl | rfl | rfl | rfl | rfl | rfl <;> revert h <;> decide
  · refine ⟨hr '0' '9' (by decide) (by decide) h, ?_⟩
    intro hm
    simp only [List.mem_cons, List.not_mem_nil, or_false] at hm
    rcases hm with rfl | rfl | rfl | rfl | rfl | rfl | rfl | rfl | rfl <;> revert h <;> decide

theorem Leaves.imp {p q : Str → Prop} (hpq : ∀ s, p s → q s) {t : Tree} (h : t.Leaves p) : t.Leaves q := by
  induction t with
  | text s => exact hpq s h
  | ref n ih => exact ih h
  | eval a ih => exact ih h
  | strip a ih => exact ih h
  | word i l ih1 ih2 => exact ⟨ih1 h.1, ih2 h.2⟩
  | words a ih => exact ih h

/-- Characters of a printed tree are ASCII and no line feeds; it is not empty and does not begin with a blank. -/
theorem print_chars {t : Tree} (h : t.Leaves Word) :
    (∀ c ∈ t.print, isAscii c = true ∧ c ≠ '\n') ∧ ∃ c s, t.print = c :: s ∧ c ≠ ' ' ∧ c ≠ '\t' := by
  have app : ∀ (a b s : Str), (∀ c ∈ a, isAscii c = true ∧ c ≠ '\n') → (∀ c ∈ s, isAscii c = true ∧ c ≠ '\n') →
      (∀ c ∈ b, isAscii c = true ∧ c ≠ '\n') → ∀ c ∈ a ++ s ++ b, isAscii c = true ∧ c ≠ '\n' := by
    intro a b s ha hs hb c hc
    simp only [List.mem_append, or_assoc] at hc
    rcases hc with hc | hc | hc
    · exact ha c hc
    · exact hs c hc
    · exact hb c hc
  induction t with
  | text s =>
    obtain ⟨h0, h⟩ := h
    refine ⟨fun c hc => ⟨(h c hc).1, fun he => (h c hc).2 (by simp [he])⟩, ?_⟩
    obtain ⟨c, s, rfl⟩ := List.exists_cons_of_ne_nil h0
    exact ⟨c, s, rfl, fun he => (h c (by simp)).2 (by simp [he]), fun he => (h c (by simp)).2 (by simp [he])⟩
  | ref n ih => exact ⟨app _ _ _ (by decide) (ih h).1 (by decide), '$', _, rfl, by decide, by decide⟩
  | eval n ih => exact ⟨app _ _ _ (by decide) (ih h).1 (by decide), '$', _, rfl, by decide, by decide⟩
  | strip n ih => exact ⟨app _ _ _ (by decide) (ih h).1 (by decide), '$', _, rfl, by decide, by decide⟩
  | word i l ih1 ih2 =>
    exact ⟨app _ _ _ (app _ _ _ (by decide) (ih1 h.1).1 (by decide)) (ih2 h.2).1 (by decide), '$', _, rfl, by decide, by decide⟩
  | words n ih => exact ⟨app _ _ _ (by decide) (ih h).1 (by decide), '$', _, rfl, by decide, by decide⟩

/-! ### Brackets and commas -/

theorem balanced_append' {a b : List LChar} (ha : Balanced a) (hb : Balanced b) : Balanced (a ++ b) := by
  induction ha with
  | nil => exact hb
  | char h1 h2 _ ih => exact .char h1 h2 ih
  | nest _ _ _ ih => rw [List.cons_append, List.append_assoc, List.cons_append]; exact .nest ‹_› ih

theorem balanced_of {t : List LChar} (h : ∀ x ∈ t, x.1 ≠ '(' ∧ x.1 ≠ ')') : Balanced t := by
  induction t with
  | nil => exact .nil
  | cons x t ih => exact .char (h x (by simp)).1 (h x (by simp)).2 (ih fun y hy => h y (by simp [hy]))

theorem fst_mem_locate {l : Location} {s : Str} {x : LChar} (h : x ∈ locate l s) : x.1 ∈ s := by
  have := List.mem_map_of_mem (f := Prod.fst) h
  rwa [locate_fst] at this

/-- A text `(inside)` after plain text is balanced. -/
theorem balanced_call {l : Location} {w inside : Str} (hw : '(' ∉ w ∧ ')' ∉ w)
    (hi : ∀ l, Balanced (locate l inside)) : Balanced (locate l (w ++ inside)) := by
  rw [locate_append]
  refine balanced_append' (balanced_of fun x hx => ?_) (hi _)
  have := fst_mem_locate hx
  exact ⟨fun he => hw.1 (he ▸ this), fun he => hw.2 (he ▸ this)⟩

theorem balanced_paren {l : Location} {inside : Str} (hi : ∀ l, Balanced (locate l inside)) :
    Balanced (locate l ("$(".toList ++ inside ++ ")".toList)) := by
  rw [locate_append, locate_append]
  have h1 : ∀ l, locate l ")".toList = [(')', l)] := fun _ => rfl
  have h2 : locate l "$(".toList = [('$', l), ('(', l.after ['$'])] := rfl
  rw [h1, h2]
  simp only [List.cons_append, List.nil_append]
  exact .char (by simp) (by simp) (.nest (hi _) .nil)

theorem print_eval (n : Tree) : (Tree.eval n).print = "$(".toList ++ ("eval ".toList ++ n.print) ++ ")".toList := by
  have h : (Tree.eval n).print = "$(".toList ++ "eval ".toList ++ n.print ++ ")".toList := rfl
  exact h.trans (by rw [List.append_assoc "$(".toList])
theorem print_strip (n : Tree) : (Tree.strip n).print = "$(".toList ++ ("strip ".toList ++ n.print) ++ ")".toList := by
  have h : (Tree.strip n).print = "$(".toList ++ "strip ".toList ++ n.print ++ ")".toList := rfl
  exact h.trans (by rw [List.append_assoc "$(".toList])
theorem print_words (n : Tree) : (Tree.words n).print = "$(".toList ++ ("words ".toList ++ n.print) ++ ")".toList := by
  have h : (Tree.words n).print = "$(".toList ++ "words ".toList ++ n.print ++ ")".toList := rfl
  exact h.trans (by rw [List.append_assoc "$(".toList])
theorem print_word (i n : Tree) : (Tree.word i n).print =
    "$(".toList ++ ("word ".toList ++ (i.print ++ (",".toList ++ n.print))) ++ ")".toList := by
  have h : (Tree.word i n).print =
    "$(".toList ++ "word ".toList ++ i.print ++ ",".toList ++ n.print ++ ")".toList := rfl
  exact h.trans (by simp only [List.append_assoc])

theorem balanced_print {t : Tree} (h : t.Leaves Word) : ∀ l, Balanced (locate l t.print) := by
  induction t with
  | text s =>
    intro l
    refine balanced_of fun x hx => ?_
    have := (h.2 _ (fst_mem_locate hx)).2
    exact ⟨fun he => this (by simp [he]), fun he => this (by simp [he])⟩
  | ref n ih => exact fun l => balanced_paren (ih h)
  | eval n ih =>
    intro l
    rw [print_eval]
    exact balanced_paren fun l => balanced_call (by decide) (ih h)
  | strip n ih =>
    intro l
    rw [print_strip]
    exact balanced_paren fun l => balanced_call (by decide) (ih h)
  | words n ih =>
    intro l
    rw [print_words]
    exact balanced_paren fun l => balanced_call (by decide) (ih h)
  | word i n ih1 ih2 =>
    intro l
    rw [print_word]
    refine balanced_paren fun l => balanced_call (by decide) fun l => ?_
    rw [locate_append]
    exact balanced_append' (ih1 h.1 _) (balanced_call (by decide) (ih2 h.2))

/-- Cutting at a comma passes over the text, if at least `d` parentheses are open. -/
def Skips (d : Nat) (t : List LChar) : Prop :=
  ∀ p c u, d ≤ p → cutArg p c (t ++ u) = (cutArg p c u).map fun q => (t ++ q.1, q.2)

theorem Skips.append {d : Nat} {a b : List LChar} (ha : Skips d a) (hb : Skips d b) : Skips d (a ++ b) := by
  intro p c u hp
  rw [List.append_assoc, ha _ _ _ hp, hb _ _ _ hp, Option.map_map]
  congr 1
  funext q
  simp

theorem Skips.mono {d e : Nat} {t : List LChar} (h : Skips d t) (hde : d ≤ e) : Skips e t :=
  fun p c u hp => h p c u (by omega)

theorem skips_plain {d : Nat} {t : List LChar}
    (h : ∀ x ∈ t, x.1 ∉ ['(', ')', '{', '}'] ∧ (x.1 = ',' → 0 < d)) : Skips d t := by
  intro p c u hp
  induction t with
  | nil => simp
  | cons x t ih =>
    obtain ⟨h1, h2⟩ := h x (by simp)
    simp only [List.mem_cons, List.not_mem_nil, or_false, not_or] at h1
    rw [List.cons_append, cutArg, if_neg h1.1, if_neg h1.2.1, if_neg h1.2.2.1, if_neg h1.2.2.2,
      if_neg (by rintro ⟨g1, _, g2⟩; have := h2 g1; omega), ih fun y hy => h y (by simp [hy]), Option.map_map]
    rfl

theorem skips_paren {l l' : Location} {t : List LChar} (h : Skips 1 t) : Skips 0 (('(', l) :: (t ++ [(')', l')])) := by
  intro p c u _
  rw [List.cons_append, cutArg, if_pos rfl, List.append_assoc, h _ _ _ (by omega)]
  simp only [List.cons_append, List.nil_append]
  rw [cutArg, if_neg (by simp), if_pos rfl, if_pos (by omega)]
  simp only [Nat.add_sub_cancel, Option.map_map]
  congr 1
  funext q
  simp

theorem skips_dollar {l : Location} {inside : Str} (h : ∀ l, Skips 1 (locate l inside)) :
    Skips 0 (locate l ("$(".toList ++ inside ++ ")".toList)) := by
  rw [locate_append, locate_append]
  have h1 : ∀ l, locate l ")".toList = [(')', l)] := fun _ => rfl
  have h2 : locate l "$(".toList = [('$', l)] ++ [('(', l.after ['$'])] := rfl
  rw [h1, h2, List.append_assoc, List.append_assoc]
  refine Skips.append (skips_plain (by simp)) ?_
  exact skips_paren (h _)

theorem skips_call {l : Location} {w inside : Str} (hw : ∀ c ∈ w, c ∉ ['(', ')', '{', '}'])
    (hi : ∀ l, Skips 0 (locate l inside)) : Skips 1 (locate l (w ++ inside)) := by
  rw [locate_append]
  exact Skips.append (skips_plain fun x hx => ⟨hw _ (fst_mem_locate hx), fun _ => by omega⟩) ((hi _).mono (by omega))

theorem skips_print {t : Tree} (h : t.Leaves Word) : ∀ l, Skips 0 (locate l t.print) := by
  induction t with
  | text s =>
    intro l
    refine skips_plain fun x hx => ?_
    have := (h.2 _ (fst_mem_locate hx)).2
    simp only [List.mem_cons, List.not_mem_nil, or_false, not_or] at this ⊢
    exact ⟨⟨this.2.2.2.2.2.1, this.2.2.2.2.2.2.1, this.2.2.2.2.2.2.2.1, this.2.2.2.2.2.2.2.2⟩,
      fun he => absurd he this.2.2.2.2.1⟩
  | ref n ih => exact fun l => skips_dollar fun l => (ih h l).mono (by omega)
  | eval n ih =>
    intro l
    rw [print_eval]
    exact skips_dollar fun l => skips_call (by decide) (ih h)
  | strip n ih =>
    intro l
    rw [print_strip]
    exact skips_dollar fun l => skips_call (by decide) (ih h)
  | words n ih =>
    intro l
    rw [print_words]
    exact skips_dollar fun l => skips_call (by decide) (ih h)
  | word i n ih1 ih2 =>
    intro l
    rw [print_word]
    refine skips_dollar fun l => ?_
    rw [locate_append, locate_append]
    refine Skips.append (skips_plain fun x hx => ⟨?_, fun _ => by omega⟩)
      (Skips.append ((ih1 h.1 _).mono (by omega)) (skips_call (by decide) (ih2 h.2)))
    have : ∀ c ∈ "word ".toList, c ∉ ['(', ')', '{', '}'] := by decide
    exact this _ (fst_mem_locate hx)

theorem cutArg_print {t : Tree} (h : t.Leaves Word) (l : Location) :
    cutArg 0 0 (locate l t.print) = some (locate l t.print, []) := by
  have := skips_print h l 0 0 [] (by omega)
  rw [List.append_nil] at this
  rw [this]
  simp [cutArg]

theorem cutArg_comma {t : Tree} (h : t.Leaves Word) (l l' : Location) (u : List LChar) :
    cutArg 0 0 (locate l t.print ++ (',', l') :: u) = some (locate l t.print, (',', l') :: u) := by
  rw [skips_print h l 0 0 _ (by omega), cutArg, if_neg (by simp), if_neg (by simp), if_neg (by simp), if_neg (by simp),
    if_pos (by simp)]
  simp

/-! ### Reading printed trees -/

theorem after_line {k : Nat} {f : FileName} {s : Str} (h : '\n' ∉ s) :
    (Location.source 1 k f).after s = .source 1 (k + s.length) f := by
  simp [Location.after, lineAfter, columnAfter, h, List.count_eq_zero.mpr h]

theorem calls_call {g : Fn} {k : Nat} {f : FileName} {c : Char} {s : Str} (h1 : c ≠ ' ') (h2 : c ≠ '\t') :
    calls (locate (.source 1 k f) (g.name ++ ' ' :: c :: s)) =
      some (g, locate (.source 1 (k + g.name.length + 1) f) (c :: s)) := by
  have hf : [Fn.eval, Fn.strip, Fn.words, Fn.word].find?
      (fun g' => g'.name.isPrefixOf (g.name ++ ' ' :: c :: s)) = some g := by
    cases g <;> rfl
  have hn : '\n' ∉ g.name := by cases g <;> decide
  unfold calls
  rw [textOf_locate, hf]
  simp only [Option.map_some, Option.some.injEq, Prod.mk.injEq, true_and]
  rw [locate_append, List.drop_left' (by simp), after_line hn, locate, after_line (by decide)]
  unfold skipBlanks
  rw [List.dropWhile_cons_of_pos (by simp), locate, List.dropWhile_cons_of_neg (by simp [h1, h2])]
  rfl

theorem locate_paren {k : Nat} {f : FileName} {s : Str} :
    ∃ l₁ l₂, locate (.source 1 k f) ("$(".toList ++ s ++ ")".toList) =
      ('$', .source 1 k f) :: ('(', l₁) :: (locate (.source 1 (k + 2) f) s ++ [(')', l₂)]) := by
  refine ⟨(Location.source 1 k f).after ['$'], (Location.source 1 k f).after ("$(".toList ++ s), ?_⟩
  rw [locate_append, locate_append, after_line (s := "$(".toList) (by decide)]
  rfl

/-- One call, given how its argument list is read. -/
theorem givesAst_call {P : Block} (hm : Block.Mono P) {n k : Nat} {f : FileName} {g : Fn} {s : Str} {a : Ast}
    (ha : a.isEmpty = false) (hb : ∀ l, Balanced (locate l s)) (hs : ∃ c u, s = c :: u ∧ c ≠ ' ' ∧ c ≠ '\t')
    (hg : ∀ j : Span, j.At P (locate (.source 1 (k + (g.name.length + 3)) f) s) →
      ∃ r, fnParser (parseAstF n) (.source 1 k f) g j = .ok (.done r a) ∧ r.At P []) :
    GivesAst P (n + 1) (locate (.source 1 k f) ("$(".toList ++ ((g.name ++ [' ']) ++ s) ++ ")".toList)) a := by
  obtain ⟨l₁, l₂, e⟩ := locate_paren (k := k) (f := f) (s := (g.name ++ [' ']) ++ s)
  rw [e]
  obtain ⟨c, u, rfl, h1, h2⟩ := hs
  refine givesAst_paren hm n ha fun i hi => ?_
  refine advancedVar_call n ?_ ?_ hg hi
  · exact balanced_call (by cases g <;> decide) hb
  · rw [List.append_assoc, List.singleton_append, calls_call h1 h2]
    congr 4
    omega

theorem fnStrip_gives {P : Block} {n : Nat} {l : Location} {t : List LChar} {a : Ast} (hb : skipBlanks t = t)
    (hc : cutArg 0 0 t = some (t, [])) (hg : GivesAst P n t a) (j : Span) (h : j.At P t) :
    (∃ r, fnParser (parseAstF n) l .strip j = .ok (.done r (.strip l a)) ∧ r.At P []) ∧
    (∃ r, fnParser (parseAstF n) l .words j = .ok (.done r (.words l a)) ∧ r.At P []) := by
  have hfa := functionArgument_at h
  rw [hb] at hfa
  obtain ⟨ri, ai, e1, e2, e3⟩ := hfa.2 _ _ hc
  have hl : ¬ ri.length ≠ 0 := by rw [e2.length]; simp
  obtain ⟨r, g1, g2⟩ := hg ai e3
  refine ⟨⟨ri, ?_, e2⟩, ⟨ri, ?_, e2⟩⟩
  · simp only [fnParser, fnStrip, e1, done_andThen, if_neg hl, g1]; rfl
  · simp only [fnParser, fnWords, e1, done_andThen, if_neg hl, g1]; rfl

theorem fnWord_gives {P : Block} {n : Nat} {l lc : Location} {t u : List LChar} {a b : Ast}
    (hb : skipBlanks (t ++ (',', lc) :: u) = t ++ (',', lc) :: u) (hb' : skipBlanks u = u)
    (hc : cutArg 0 0 (t ++ (',', lc) :: u) = some (t, (',', lc) :: u)) (hc' : cutArg 0 0 u = some (u, []))
    (hg : GivesAst P n t a) (hg' : GivesAst P n u b) (j : Span) (h : j.At P (t ++ (',', lc) :: u)) :
    ∃ r, fnParser (parseAstF n) l .word j = .ok (.done r (.word l a b)) ∧ r.At P [] := by
  have hfa := functionArgument_at h
  rw [hb] at hfa
  obtain ⟨ri, ai, e1, e2, e3⟩ := hfa.2 _ _ hc
  obtain ⟨r2, e6, e7⟩ := (Nom.char_at e2 (c := ',') (by decide)).1 _ _ rfl
  obtain ⟨r3, g1, g2⟩ := hg ai e3
  have hfa' := functionArgument_at e7
  rw [hb'] at hfa'
  obtain ⟨r4, a4, k1, k2, k3⟩ := hfa'.2 _ _ hc'
  have hl : ¬ r4.length ≠ 0 := by rw [k2.length]; simp
  obtain ⟨r5, m1, m2⟩ := hg' a4 k3
  refine ⟨r4, ?_, k2⟩
  simp only [fnParser, fnWord, e1, done_andThen, e6, Res.ok_bind, g1, k1, if_neg hl, m1]; rfl

theorem skipBlanks_locate {l : Location} {s : Str} (u : List LChar) (hs : ∃ c v, s = c :: v ∧ c ≠ ' ' ∧ c ≠ '\t') :
    skipBlanks (locate l s ++ u) = locate l s ++ u := by
  obtain ⟨c, v, rfl, h1, h2⟩ := hs
  unfold skipBlanks
  rw [locate, List.cons_append, List.dropWhile_cons_of_neg (by simp [h1, h2])]

theorem ast_nonempty (f : FileName) (k : Nat) (t : Tree) : (ast f k t).isEmpty = false := by
  cases t <;> rfl

/-- Every printed tree is read as the tree. -/
theorem gives_print {P : Block} (hm : Block.Mono P) (hp : P.content.length ≤ 1) (f : FileName) {t : Tree}
    (h : t.Leaves Word) (hn : t.Names NotFunction) :
    ∀ (n k : Nat), t.print.length < n → GivesAst P n (locate (.source 1 k f) t.print) (t.ast f k) := by
  have hd : 0 < "$(".toList.length := by decide
  induction t with
  | text s =>
    intro n k hl
    obtain ⟨n, rfl⟩ : ∃ m, n = m + 1 := ⟨n - 1, by omega⟩
    exact givesAst_text hm hp n h.1 fun hd => (h.2 _ hd).2 (by simp)
  | ref t ih =>
    intro n k hl
    obtain ⟨n, rfl⟩ : ∃ m, n = m + 1 := ⟨n - 1, by omega⟩
    have e : (Tree.ref t).print = "$(".toList ++ t.print ++ ")".toList := rfl
    rw [e] at hl ⊢
    obtain ⟨l₁, l₂, e⟩ := locate_paren (k := k) (f := f) (s := t.print)
    rw [e]
    have hn' : t.Names NotFunction := by
      cases t with
      | text s => exact trivial
      | _ => exact hn
    refine givesAst_paren hm n rfl fun i hi => advancedVar_ref n (balanced_print (t := t) h _) ?_ (ih h hn' n (k + 2) ?_) hi
    · rw [calls_eq_none]
      rintro ⟨g, hg⟩
      rw [textOf_locate] at hg
      cases t with
      | text s => exact hn g hg
      | ref t => cases g <;> exact absurd (List.cons_prefix_cons.mp hg).1 (by decide)
      | eval t => cases g <;> exact absurd (List.cons_prefix_cons.mp hg).1 (by decide)
      | strip t => cases g <;> exact absurd (List.cons_prefix_cons.mp hg).1 (by decide)
      | word i t => cases g <;> exact absurd (List.cons_prefix_cons.mp hg).1 (by decide)
      | words t => cases g <;> exact absurd (List.cons_prefix_cons.mp hg).1 (by decide)
    · simp only [List.length_append] at hl; omega
  | eval t ih =>
    intro n k hl
    obtain ⟨n, rfl⟩ : ∃ m, n = m + 1 := ⟨n - 1, by omega⟩
    rw [print_eval] at hl ⊢
    refine givesAst_call (g := .eval) hm rfl (balanced_print (t := t) h) (print_chars (t := t) h).2 fun j hj => ?_
    obtain ⟨r, e1, e2⟩ := ih h hn n (k + 7) (by simp only [List.length_append] at hl; omega) j hj
    exact ⟨r, by simp only [fnParser, fnEval, e1, done_andThen]; rfl, e2⟩
  | strip t ih =>
    intro n k hl
    obtain ⟨n, rfl⟩ : ∃ m, n = m + 1 := ⟨n - 1, by omega⟩
    rw [print_strip] at hl ⊢
    refine givesAst_call (g := .strip) hm rfl (balanced_print (t := t) h) (print_chars (t := t) h).2 fun j hj => ?_
    have hs := skipBlanks_locate (l := .source 1 (k + 8) f) [] (print_chars (t := t) h).2
    rw [List.append_nil] at hs
    exact (fnStrip_gives hs (cutArg_print (t := t) h _) (ih h hn n (k + 8) (by simp only [List.length_append] at hl; omega)) j hj).1
  | words t ih =>
    intro n k hl
    obtain ⟨n, rfl⟩ : ∃ m, n = m + 1 := ⟨n - 1, by omega⟩
    rw [print_words] at hl ⊢
    refine givesAst_call (g := .words) hm rfl (balanced_print (t := t) h) (print_chars (t := t) h).2 fun j hj => ?_
    have hs := skipBlanks_locate (l := .source 1 (k + 8) f) [] (print_chars (t := t) h).2
    rw [List.append_nil] at hs
    exact (fnStrip_gives hs (cutArg_print (t := t) h _) (ih h hn n (k + 8) (by simp only [List.length_append] at hl; omega)) j hj).2
  | word i t ih1 ih2 =>
    intro n k hl
    obtain ⟨n, rfl⟩ : ∃ m, n = m + 1 := ⟨n - 1, by omega⟩
    rw [print_word] at hl ⊢
    have hnl : '\n' ∉ i.print := fun hc => ((print_chars h.1).1 _ hc).2 rfl
    have e : ∀ k, ∃ lc, locate (.source 1 k f) (i.print ++ (",".toList ++ t.print)) =
        locate (.source 1 k f) i.print ++ (',', lc) :: locate (.source 1 (k + i.print.length + 1) f) t.print := by
      intro k
      refine ⟨.source 1 (k + i.print.length) f, ?_⟩
      rw [locate_append, after_line hnl, locate_append, after_line (by decide)]
      rfl
    have hlen : i.print.length < n ∧ t.print.length < n := by simp only [List.length_append] at hl; omega
    refine givesAst_call (g := .word) hm rfl ?_ ?_ fun j hj => ?_
    · intro l
      rw [locate_append]
      exact balanced_append' (balanced_print h.1 _) (balanced_call (by decide) (balanced_print h.2))
    · obtain ⟨c, u, e, h1, h2⟩ := (print_chars h.1).2
      exact ⟨c, _, by rw [e]; rfl, h1, h2⟩
    · obtain ⟨lc, e⟩ := e (k + 7)
      have hj : j.At P (locate (.source 1 (k + 7) f) (i.print ++ (",".toList ++ t.print))) := hj
      rw [e] at hj
      have hs := skipBlanks_locate (l := .source 1 (k + 7 + i.print.length + 1) f) [] (print_chars h.2).2
      rw [List.append_nil] at hs
      exact fnWord_gives (skipBlanks_locate _ (print_chars h.1).2) hs (cutArg_comma h.1 _ _ _) (cutArg_print h.2 _)
        (ih1 h.1 hn.1 n (k + 7) hlen.1) (ih2 h.2 hn.2 n _ hlen.2) j hj

theorem ast_injective {f : FileName} : ∀ {t u : Tree} {k : Nat}, ast f k t = ast f k u → t = u := by
  intro t
  induction t with
  | text s => intro u k h; cases u <;> simp_all [ast]
  | ref t ih => intro u k h; cases u <;> simp only [ast, reduceCtorEq] at h; injection h with _ h; rw [ih h]
  | eval t ih => intro u k h; cases u <;> simp only [ast, reduceCtorEq] at h; injection h with _ h; rw [ih h]
  | strip t ih => intro u k h; cases u <;> simp only [ast, reduceCtorEq] at h; injection h with _ h; rw [ih h]
  | words t ih => intro u k h; cases u <;> simp only [ast, reduceCtorEq] at h; injection h with _ h; rw [ih h]
  | word i t ih1 ih2 =>
    intro u k h
    cases u <;> simp only [ast, reduceCtorEq] at h
    injection h with _ h1 h2
    have e := ih1 h1
    subst e
    rw [ih2 h2]

/-! ### The other direction -/

theorem reads_paren {l l₁ l₂ : Location} {name : List LChar} {es : List Expr} (hb : Balanced name)
    (h : Reads (('$', l) :: ('(', l₁) :: (name ++ [(')', l₂)])) (.ok es)) :
    (∃ ns, calls name = none ∧ Reads name (.ok ns) ∧ es = [.ref l ns]) ∨
      ∃ g arg, calls name = some (g, arg) ∧ ReadsCall l g arg (.ok es) := by
  generalize ho : (Except.ok es : Outcome) = o at h
  cases h with
  | char h => exact absurd rfl h
  | single _ h => exact absurd rfl h
  | paren h =>
    rw [closing_of_balanced hb] at h
    cases h with
    | ref hc hn hr =>
      cases hr
      simp only [Except.map, Except.ok.injEq] at ho
      exact .inl ⟨_, hc, hn, ho⟩
    | nameError => cases ho
    | call hc h => subst ho; exact .inr ⟨_, _, hc, h⟩

/-- What is read of a printed call. -/
theorem reads_call {g : Fn} {k : Nat} {f : FileName} {s : Str} {es : List Expr}
    (hb : ∀ l, Balanced (locate l s)) (hs : ∃ c u, s = c :: u ∧ c ≠ ' ' ∧ c ≠ '\t')
    (h : Reads (locate (.source 1 k f) ("$(".toList ++ ((g.name ++ [' ']) ++ s) ++ ")".toList)) (.ok es)) :
    ReadsCall (.source 1 k f) g (locate (.source 1 (k + (g.name.length + 3)) f) s) (.ok es) := by
  obtain ⟨l₁, l₂, e⟩ := locate_paren (k := k) (f := f) (s := (g.name ++ [' ']) ++ s)
  rw [e] at h
  obtain ⟨c, u, rfl, h1, h2⟩ := hs
  have hc : calls (locate (.source 1 (k + 2) f) ((g.name ++ [' ']) ++ c :: u)) =
      some (g, locate (.source 1 (k + (g.name.length + 3)) f) (c :: u)) := by
    rw [List.append_assoc, List.singleton_append, calls_call h1 h2]
    congr 4
    omega
  rcases reads_paren (balanced_call (by cases g <;> decide) hb) h with ⟨ns, h3, _⟩ | ⟨g', arg, h3, h4⟩
  · rw [hc] at h3; cases h3
  · rw [hc] at h3; cases h3; exact h4

/-- A tree that is read back has no plain-text names that begin with the name of a function. -/
theorem names_of_reads (f : FileName) {t : Tree} (h : t.Leaves Word) :
    ∀ (k : Nat), Reads (locate (.source 1 k f) t.print) (.ok (t.ast f k).flat) → t.Names NotFunction := by
  induction t with
  | text s => intro _ _; trivial
  | ref t ih =>
    intro k hr
    have e : (Tree.ref t).print = "$(".toList ++ t.print ++ ")".toList := rfl
    rw [e] at hr
    obtain ⟨l₁, l₂, e⟩ := locate_paren (k := k) (f := f) (s := t.print)
    rw [e] at hr
    rcases reads_paren (balanced_print (t := t) h _) hr with ⟨ns, h1, h2, h3⟩ | ⟨g, arg, _, h2⟩
    · injection h3 with h3
      injection h3 with _ h3
      subst h3
      have := ih h (k + 2) h2
      cases t with
      | text s =>
        rw [calls_eq_none] at h1
        intro g hg
        exact h1 ⟨g, by rw [textOf_locate]; exact hg⟩
      | _ => exact this
    · exact absurd h2 readsCall_not_ref
  | eval t ih =>
    intro k hr
    rw [print_eval] at hr
    have h2 := reads_call (g := .eval) (balanced_print (t := t) h) (print_chars (t := t) h).2 hr
    generalize ho : (Except.ok _ : Outcome) = o at h2
    cases h2 with
    | eval h2 =>
      obtain ⟨es, rfl, h3⟩ := map_ok ho
      injection h3 with h3
      injection h3 with _ h3
      subst h3
      exact ih h (k + 7) h2
    | unbalanced h => exact absurd rfl h
    | extra h => rcases h with h | h <;> cases h
  | strip t ih =>
    intro k hr
    rw [print_strip] at hr
    have h2 := reads_call (g := .strip) (balanced_print (t := t) h) (print_chars (t := t) h).2 hr
    generalize ho : (Except.ok _ : Outcome) = o at h2
    cases h2 with
    | strip hc h2 =>
      rw [cutArg_print (t := t) h _] at hc
      cases hc
      obtain ⟨es, rfl, h3⟩ := map_ok ho
      injection h3 with h3
      injection h3 with _ h3
      subst h3
      exact ih h (k + 8) h2
    | unbalanced => cases ho
    | extra => cases ho
  | words t ih =>
    intro k hr
    rw [print_words] at hr
    have h2 := reads_call (g := .words) (balanced_print (t := t) h) (print_chars (t := t) h).2 hr
    generalize ho : (Except.ok _ : Outcome) = o at h2
    cases h2 with
    | words hc h2 =>
      rw [cutArg_print (t := t) h _] at hc
      cases hc
      obtain ⟨es, rfl, h3⟩ := map_ok ho
      injection h3 with h3
      injection h3 with _ h3
      subst h3
      exact ih h (k + 8) h2
    | unbalanced => cases ho
    | extra => cases ho
  | word i t ih1 ih2 =>
    intro k hr
    rw [print_word] at hr
    have hnl : '\n' ∉ i.print := fun hc => ((print_chars h.1).1 _ hc).2 rfl
    have hb : ∀ l, Balanced (locate l (i.print ++ (",".toList ++ t.print))) := by
      intro l
      rw [locate_append]
      exact balanced_append' (balanced_print h.1 _) (balanced_call (by decide) (balanced_print h.2))
    have hs : ∃ c u, i.print ++ (",".toList ++ t.print) = c :: u ∧ c ≠ ' ' ∧ c ≠ '\t' := by
      obtain ⟨c, u, e, h1, h2⟩ := (print_chars h.1).2
      exact ⟨c, _, by rw [e]; rfl, h1, h2⟩
    have h2 := reads_call (g := .word) hb hs hr
    have e : locate (.source 1 (k + (Fn.word.name.length + 3)) f) (i.print ++ (",".toList ++ t.print)) =
        locate (.source 1 (k + 7) f) i.print ++ (',', .source 1 (k + 7 + i.print.length) f) ::
          locate (.source 1 (k + 7 + i.print.length + 1) f) t.print := by
      rw [show k + (Fn.word.name.length + 3) = k + 7 from rfl, locate_append, after_line hnl, locate_append,
        after_line (by decide)]
      rfl
    rw [e] at h2
    generalize ho : (Except.ok _ : Outcome) = o at h2
    have hsk := skipBlanks_locate (l := .source 1 (k + 7 + i.print.length + 1) f) [] (print_chars (t := t) h.2).2
    rw [List.append_nil] at hsk
    cases h2 with
    | word hc hi hc' hl =>
      rw [cutArg_comma h.1 _ _ _] at hc
      cases hc
      rw [hsk, cutArg_print h.2 _] at hc'
      cases hc'
      obtain ⟨es, rfl, h3⟩ := map_ok ho
      injection h3 with h3
      injection h3 with _ h3 h4
      subst h3 h4
      exact ⟨ih1 h.1 (k + 7) hi, ih2 h.2 (k + 7 + i.print.length + 1) hl⟩
    | unbalanced => cases ho
    | extra => cases ho
    | few => cases ho
    | indexError => cases ho
    | unbalanced2 => cases ho
    | extra2 => cases ho

end Tree
end Hastur
