import Verif.Spec.Keywords
import Verif.Proofs.RuleDemo
import Verif.Proofs.Conditional
/-
Lemmas: lines that begin with ordinary names.
-/
namespace Hastur

open Res

variable {P : Block} {t : List LChar} {i : Span}

theorem prefix_before {α : Type} {w a b : List α} {c : α} (h : w <+: a ++ c :: b) (hc : c ∉ w) : w <+: a := by
  induction w generalizing a with
  | nil => exact List.nil_prefix
  | cons x w ih =>
    cases a with
    | nil =>
      rw [List.nil_append, List.cons_prefix_cons] at h
      exact absurd (by simp [h.1]) hc
    | cons y a =>
      rw [List.cons_append, List.cons_prefix_cons] at h
      rw [List.cons_prefix_cons]
      exact ⟨h.1, ih h.2 (fun hm => hc (by simp [hm]))⟩

/-- Letters and the hyphen. -/
def KeyChar (c : Char) : Bool := c.isAlpha || c == '-'

theorem keywords_chars : ∀ w ∈ keywords, ∀ c ∈ w, KeyChar c = true := by
  unfold keywords condWords directiveWords
  decide

instance : DecidablePred IdentChar := fun c => inferInstanceAs (Decidable (_ ∨ _))
instance : DecidablePred NameChar := fun c => inferInstanceAs (Decidable (_ ∧ _))
instance : DecidablePred WordChar := fun c => inferInstanceAs (Decidable (_ ∧ _))

theorem ascii_forall {q : Char → Prop} (h : ∀ n : Fin 128, q (Char.ofNat n)) {c : Char} (hc : c.toNat < 128) : q c := by
  have := h ⟨c.toNat, hc⟩
  rwa [show Char.ofNat (⟨c.toNat, hc⟩ : Fin 128).val = c from Char.ofNat_toNat c] at this

theorem IdentChar.lt {c : Char} (h : IdentChar c) : c.toNat < 128 := by
  rcases h with h | h
  · simp only [Char.isAlphanum, Char.isAlpha, Char.isUpper, Char.isLower, Char.isDigit, Bool.or_eq_true,
      Bool.and_eq_true, decide_eq_true_eq, ge_iff_le, UInt32.le_iff_toNat_le, Char.toNat] at h ⊢
    simp at h
    have : c.val.toNat = c.toNat := rfl
    omega
  · simp only [List.mem_cons, List.not_mem_nil, or_false] at h
    rcases h with rfl | rfl | rfl | rfl <;> decide

/-- Everything about the characters of names that is needed below. -/
theorem IdentChar.facts {c : Char} (h : IdentChar c) : NameChar c ∧ WordChar c ∧ c ∉ [' ', '\t', '(', '"', '\'', '\n'] :=
  ascii_forall (q := fun c => IdentChar c → NameChar c ∧ WordChar c ∧ c ∉ [' ', '\t', '(', '"', '\'', '\n'])
    (by decide +kernel) h.lt h

/-- A keyword at the beginning of a line lies within the first word. -/
theorem keyword_within {w : Str} (hw : w ∈ keywords) {name : List LChar} {x : LChar} {u : List LChar}
    (hx : KeyChar (lower x.1) = false) (h : w <+: (textOf (name ++ x :: u)).map lower) : w <+: (textOf name).map lower := by
  rw [textOf_append, List.map_append] at h
  refine prefix_before (c := lower x.1) (b := (textOf u).map lower) h ?_
  intro hm
  rw [keywords_chars w hw _ hm] at hx
  cases hx

theorem sub_keywords {w : Str} (h : w ∈ greedyConds) : w ∈ keywords := by
  revert w
  unfold keywords condWords directiveWords greedyConds
  decide

/-- A line that begins with an ordinary name is a conditional only if the name begins with one of the four keywords. -/
theorem not_condLike_name {name u : List LChar} {x : LChar} (hn : IdentName name) (hx : KeyChar (lower x.1) = false)
    (hk : (textOf name).map lower ∉ keywords) (hg : ∀ w ∈ greedyConds, ¬ w <+: (textOf name).map lower) :
    ¬ CondLike (name ++ x :: u) := by
  intro h
  cases h with
  | @word w hw hp =>
    exact hg w hw (keyword_within (sub_keywords hw) hx hp)
  | @eq a b e hw hh =>
    have hin : (textOf a).map lower ∈ keywords := by
      revert hw
      generalize (textOf a).map lower = s
      revert s
      unfold keywords condWords directiveWords
      simp only [List.mem_cons, List.not_mem_nil, or_false]
      rintro s (rfl | rfl) <;> decide
    have hp : (textOf a).map lower <+: (textOf (name ++ x :: u)).map lower := by
      rw [e, textOf_append, List.map_append]
      exact List.prefix_append _ _
    have hp := keyword_within hin hx hp
    have hlen : a.length < name.length := by
      have h1 := hp.length_le
      simp only [List.length_map, textOf_length] at h1
      rcases Nat.lt_or_ge a.length name.length with h2 | h2
      · exact h2
      · have : (textOf a).map lower = (textOf name).map lower := hp.eq_of_length (by simp only [List.length_map, textOf_length]; omega)
        exact absurd (this ▸ hin) hk
    have hb : b = name.drop a.length ++ x :: u := by
      have := congrArg (List.drop a.length) e
      rw [List.drop_append_of_le_length (by omega), List.drop_left] at this
      exact this.symm
    cases hd : name.drop a.length with
    | nil => have := congrArg List.length hd; simp at this; omega
    | cons y v =>
      have hy : IdentChar y.1 := hn.2 y (List.mem_of_mem_drop (by rw [hd]; simp))
      have f := hy.facts.2.2
      simp only [List.mem_cons, List.not_mem_nil, or_false, not_or] at f
      rw [hb, hd, List.cons_append, List.dropWhile_cons_of_neg (by simp [lblank, f])] at hh
      simp [textOf, f] at hh

theorem dropBlanks_name {name u : List LChar} (hn : IdentName name) : (name ++ u).dropWhile lblank = name ++ u := by
  cases name with
  | nil => exact absurd rfl hn.1
  | cons y v =>
    have f := (hn.2 y (by simp)).facts.2.2
    simp only [List.mem_cons, List.not_mem_nil, or_false, not_or] at f
    exact List.dropWhile_cons_of_neg (by simp [lblank, f])

/-- After the name of an assignment there is something that is not part of a keyword. -/
theorem AssignText.after_name {line name value : List LChar} {ty : AssignType} (h : AssignText line name ty value) :
    ∃ x u, line = name ++ x :: u ∧ KeyChar (lower x.1) = false := by
  cases h with
  | mk name gap op gap' value ty _ h2 h3 =>
    cases gap with
    | cons y gap =>
      refine ⟨y, _, rfl, ?_⟩
      rcases h2 y (by simp) with h | h <;> (rw [h]; decide)
    | nil =>
      cases op with
      | nil => generalize hs : textOf [] = s at h3; cases h3 <;> cases hs
      | cons y op =>
        refine ⟨y, _, rfl, ?_⟩
        obtain ⟨c, l⟩ := y
        generalize hs : textOf ((c, l) :: op) = s at h3
        have hc : s.head? = some c := by rw [← hs]; rfl
        cases h3 <;> (cases hc; rfl)

theorem modifier_words : ∀ kw ∈ ["override".toList, "private".toList], ∀ w ∈ varWords, w ≠ kw → ¬ (w <+: kw ∨ kw <+: w) := by
  unfold varWords
  decide

theorem not_varLike_name {s : Str} (hs : PlainStart s) : ∀ {line : List LChar} {u : Str}, (textOf line).map lower = s ++ u →
    s ≠ [] → (∀ c ∈ s, c ≠ ' ' ∧ c ≠ '\t') → (∀ c, u.head? = some c → KeyChar c = false) → '=' ∉ textOf line →
    ¬ VarLike line := by
  induction hs with
  | @plain s h =>
    intro line u e _ _ hu heq hv
    have key : ∀ w ∈ varWords, ¬ w <+: (textOf line).map lower := by
      intro w hw hp
      rw [e] at hp
      have hw' : w ∈ greedyConds ++ ["define".toList, "undefine".toList, "override".toList, "private".toList] ++
          directiveWords := by
        clear hp
        revert w
        unfold varWords greedyConds directiveWords
        decide
      have hwk : w ∈ keywords := by
        clear hp hw'
        revert w
        unfold keywords condWords directiveWords varWords
        decide
      refine h w hw' ?_
      cases u with
      | nil => rwa [List.append_nil] at hp
      | cons c u =>
        refine prefix_before hp fun hm => ?_
        have := keywords_chars w hwk c hm
        rw [hu c rfl] at this
        cases this
    exact not_varLike heq key hv
  | @modifier kw s hk hne _ ih =>
    intro line u e _ hb hu heq hv
    have hcase : ∀ w : Str, w ≠ kw → w ∈ varWords → ¬ w <+: (textOf line).map lower := by
      intro w hw hm hp
      rw [e, List.append_assoc] at hp
      have : kw <+: kw ++ (s ++ u) := List.prefix_append _ _
      have := List.prefix_or_prefix_of_prefix hp this
      exact modifier_words kw hk w hm hw this
    cases hv with
    | assign ha =>
      cases ha with
      | mk name gap op gap' value ty _ _ hop =>
        refine heq ?_
        simp only [textOf_append, List.mem_append]
        right; right; left
        generalize textOf op = s at hop
        cases hop <;> simp
    | define hp =>
      refine hcase _ ?_ (by unfold varWords; decide) hp
      rintro rfl
      revert hk; decide
    | undefine hp =>
      refine hcase _ ?_ (by unfold varWords; decide) hp
      rintro rfl
      revert hk; decide
    | @modifier kw' gap line hk' hg hh hv =>
      have hp : (textOf kw').map lower <+: (textOf (kw' ++ (gap ++ line))).map lower := by
        rw [textOf_append, List.map_append]
        exact List.prefix_append _ _
      have hkk : (textOf kw').map lower = kw := by
        by_contra hne
        refine hcase _ hne ?_ hp
        revert hk'
        generalize (textOf kw').map lower = s
        unfold varWords
        simp only [List.mem_cons, List.not_mem_nil, or_false]
        rintro (rfl | rfl | rfl) <;> simp
      rw [textOf_append, List.map_append, hkk, List.append_assoc, List.append_cancel_left_eq] at e
      have hgn : gap = [] := by
        cases gap with
        | nil => rfl
        | cons x gap =>
          cases s with
          | nil => exact absurd rfl hne
          | cons c s =>
            have hx := hg x (by simp)
            have hc := hb c (by simp)
            simp only [List.cons_append, textOf, List.map_cons, List.cons.injEq] at e
            rcases hx with hx | hx <;> (rw [hx] at e; rw [← e.1] at hc; exact absurd hc (by decide))
      subst hgn
      exact ih e hne (fun c hc => hb c (by simp [hc])) hu
        (fun hm => heq (by rw [textOf_append]; simp only [List.mem_append, List.nil_append]; exact .inr hm)) hv

/-- The conditionals that are parsed but not implemented. -/
def Unhandled : Conditional → Prop
  | .ifDef _ | .ifNDef _ | .else_ (some _) => True
  | _ => False

/-- A line that begins with `else`, `endif`, `ifdef` or `ifndef`, followed directly by another character of a name, is
never read as anything else. -/
theorem parseConditionalLine_greedy {w u : List LChar} {x : LChar} (h : i.At P (w ++ x :: u))
    (hw : (textOf w).map lower ∈ greedyConds) (hx : IdentChar x.1) :
    (∀ k, parseConditionalLine i ≠ .ok (.err (.error k))) ∧
      ∀ r c, parseConditionalLine i = .ok (.done r c) → Unhandled c := by
  have f := hx.facts.2.2
  simp only [List.mem_cons, List.not_mem_nil, or_false, not_or] at f
  have hxu : (x :: u).dropWhile lblank = x :: u := List.dropWhile_cons_of_neg (by simp [lblank, f])
  have hd : (w ++ x :: u).dropWhile lblank = w ++ x :: u := by
    cases w with
    | nil => exact hxu
    | cons y w =>
      refine List.dropWhile_cons_of_neg ?_
      have : ∀ s ∈ greedyConds, s.head? ≠ some ' ' ∧ s.head? ≠ some '\t' := by unfold greedyConds; decide
      obtain ⟨h1, h2⟩ := this _ hw
      intro hy
      simp only [lblank, Bool.or_eq_true, beq_iff_eq] at hy
      rcases hy with hy | hy
      · exact h1 (by simp [textOf, hy]; decide)
      · exact h2 (by simp [textOf, hy]; decide)
  obtain ⟨k, hk, hkt⟩ : ∃ k : CondType, (textOf w).map lower = k.word ∧ k ∈ [.ifDef, .ifNDef, .else_, .endIf] := by
    revert hw
    generalize (textOf w).map lower = s
    unfold greedyConds
    simp only [List.mem_cons, List.not_mem_nil, or_false]
    rintro (rfl | rfl | rfl | rfl)
    · exact ⟨.ifDef, rfl, by simp⟩
    · exact ⟨.ifNDef, rfl, by simp⟩
    · exact ⟨.else_, rfl, by simp⟩
    · exact ⟨.endIf, rfl, by simp⟩
  obtain ⟨r, h1, h2⟩ := condKeyword_at h hd hk
  rw [hxu] at h2
  unfold parseConditionalLine parseCondF
  rw [h1, done_andThen]
  simp only [List.mem_cons, List.not_mem_nil, or_false] at hkt
  have noErr : ∀ {α : Type} (q : PRes α) (k), returnError q ≠ .ok (.err (.error k)) := by
    intro α q k hq
    unfold returnError at hq
    obtain ⟨o, ho, he⟩ := Res.bind_eq_ok.mp hq
    cases o with
    | done => cases he
    | err e => cases e <;> cases he
  have mapOk : ∀ {α : Type} (q : PRes α) (f : α → Conditional), (∀ k, q ≠ .ok (.err (.error k))) → (∀ a, Unhandled (f a)) →
      (∀ k, q.mapP f ≠ .ok (.err (.error k))) ∧ ∀ r c, q.mapP f = .ok (.done r c) → Unhandled c := by
    intro α q f hq hf
    unfold Res.mapP Res.andThen
    constructor
    · intro k h
      obtain ⟨o, ho, he⟩ := Res.bind_eq_ok.mp h
      cases o with
      | done => cases he
      | err e => cases he; exact hq _ ho
    · intro r c h
      obtain ⟨o, ho, he⟩ := Res.bind_eq_ok.mp h
      cases o with
      | done => cases he; exact hf _
      | err e => cases he
  rcases hkt with rfl | rfl | rfl | rfl
  · exact mapOk _ _ (noErr _) fun _ => trivial
  · exact mapOk _ _ (noErr _) fun _ => trivial
  · obtain ⟨s, q, e2, g2, _⟩ := whitespace_at h2
    rw [hxu] at g2
    have hs : s.length > 0 := by rw [g2.length]; simp
    simp only [e2, done_andThen, if_pos hs]
    constructor
    · intro k h
      unfold Res.andThen at h
      obtain ⟨o, ho, he⟩ := Res.bind_eq_ok.mp h
      cases o with
      | done r c => cases c <;> cases he
      | err e => cases he; exact noErr _ _ ho
    · intro r c h
      unfold Res.andThen at h
      obtain ⟨o, ho, he⟩ := Res.bind_eq_ok.mp h
      cases o with
      | done r c => cases c <;> cases he <;> trivial
      | err e => cases he
  · have hr : r.length > 0 := by rw [h2.length]; simp
    simp only [if_pos hr]
    exact ⟨fun k h => by (cases h), fun r c h => by (cases h)⟩

/-- Such a line is never read without an error. -/
theorem parseLine_greedy (fs : Fs) {p : PState} {st : St} {line rest w u : List LChar} {x : LChar}
    (h : AtLine P i t line rest p st) (hr : p.currentRule = none ∨ (textOf t).head? ≠ some st.commandChar)
    (e : line = w ++ x :: u) (hw : (textOf w).map lower ∈ greedyConds) (hx : IdentChar x.1) (r : Rec) :
    ∀ j p' st', parseLine fs r p st i ≠ .ok (.done j (), p', st') := by
  intro j' p' st' hp
  obtain ⟨j, b, h1, h2, h3⟩ := makefileLine_logical h.at_ h.logical h.comment
  have hat := h3.at
  rw [parseLine_collapsed fs r h.at_ h.comment h.define h.command hr] at hp
  have hlen : b.len ≠ 0 := by
    have := hat.length
    have e' : b.span.length = b.len := rfl
    rw [← e', this, e]
    simp
  rw [e] at hat
  obtain ⟨g1, g2⟩ := parseConditionalLine_greedy hat hw hx
  unfold parseCollapsed at hp
  simp only [h1, ok_bind, if_neg hlen] at hp
  obtain ⟨o, ho, he⟩ := Res.bind_eq_ok.mp hp
  cases o with
  | done s c =>
    have := g2 s c ho
    cases c with
    | ifDef a => cases he
    | ifNDef a => cases he
    | else_ a => cases a with
      | none => cases this
      | some c => cases he
    | _ => cases this
  | err e => cases e with
    | error k => exact g1 k ho
    | failure k => cases he

theorem IdentChar.lower_blank {c : Char} (h : IdentChar c) : lower c ≠ ' ' ∧ lower c ≠ '\t' :=
  ascii_forall (q := fun c => IdentChar c → lower c ≠ ' ' ∧ lower c ≠ '\t') (by decide +kernel) h.lt h

theorem PlainStart.not_prefix {s : Str} (h : PlainStart s) : ∀ w ∈ greedyConds ++ directiveWords, ¬ w <+: s := by
  cases h with
  | plain h =>
    intro w hw
    refine h w ?_
    simp only [List.mem_append] at hw ⊢
    rcases hw with hw | hw
    · exact .inl (.inl hw)
    · exact .inr hw
  | @modifier kw s hk =>
    intro w hw hp
    have h1 := List.prefix_or_prefix_of_prefix hp (List.prefix_append kw s)
    have : ∀ kw ∈ ["override".toList, "private".toList], ∀ w ∈ greedyConds ++ directiveWords, ¬ (w <+: kw ∨ kw <+: w) := by
      unfold greedyConds directiveWords
      decide
    exact this kw hk w hw h1

theorem trim_name {name : List LChar} (h : IdentName name) : trim (textOf name) = textOf name := by
  have h1 : ∀ s : Str, (∀ c ∈ s, isWhitespace c = false) → s.dropWhile isWhitespace = s := by
    intro s hs
    cases s with
    | nil => rfl
    | cons c s => exact List.dropWhile_cons_of_neg (by rw [hs c (by simp)]; decide)
  have h2 : ∀ c ∈ textOf name, isWhitespace c = false := by
    intro c hc
    obtain ⟨x, hx, rfl⟩ := List.mem_map.mp hc
    exact (h.2 x hx).facts.1.1
  unfold trim
  rw [h1 _ h2, h1 _ (by simpa using h2)]
  simp

end Hastur
