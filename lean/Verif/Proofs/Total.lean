import Verif.Proofs.Unquote
import Verif.Proofs.Recipe
import Verif.Proofs.Define
import Verif.Proofs.HaltsParse
import Verif.Proofs.HaltsEngine
import Verif.Proofs.Mword
/-
Lemmas: the parsers do not abort on the text of a file.
-/
namespace Hastur

open Res Span

/-- The span lies in the block `P`. -/
def InBlock (P : Block) (s : Span) : Prop := ∃ t, s.At P t

/-- The parser does not abort, and if it succeeds, the rest lies in `P` and the value satisfies `Q`. -/
def Calm {α : Type} (P : Block) (Q : α → Prop) (x : PRes α) : Prop :=
  (∀ k, x ≠ .panic k) ∧ ∀ r a, x = .ok (.done r a) → InBlock P r ∧ Q a

variable {P : Block} {α β : Type} {Q : α → Prop} {R : β → Prop} {x y : PRes α} {i : Span} {t : List LChar}

theorem calm_done {a : α} (h : InBlock P i) (hq : Q a) : Calm P Q (.ok (.done i a)) := by
  refine ⟨nofun, fun r b e => ?_⟩
  cases e
  exact ⟨h, hq⟩

theorem calm_err {e : NErr} : Calm P Q (.ok (.err e)) := ⟨nofun, nofun⟩
theorem calm_fuel : Calm P Q (.fuel) := ⟨nofun, nofun⟩

theorem Calm.andThen {f : Span → α → PRes β} (h : Calm P Q x) (hf : ∀ r a, InBlock P r → Q a → Calm P R (f r a)) :
    Calm P R (x.andThen f) := by
  match x with
  | .ok (.done r a) => exact hf r a (h.2 r a rfl).1 (h.2 r a rfl).2
  | .ok (.err e) => exact calm_err
  | .panic k => exact absurd rfl (h.1 k)
  | .fuel => exact calm_fuel

theorem Calm.mapP {f : α → β} (h : Calm P Q x) (hf : ∀ a, Q a → R (f a)) : Calm P R (x.mapP f) :=
  h.andThen fun _ a hr ha => calm_done hr (hf a ha)

theorem Calm.orElse (h : Calm P Q x) (h' : Calm P Q y) : Calm P Q (Res.orElse x y) := by
  match x with
  | .ok (.done r a) => exact h
  | .ok (.err (.error _)) => exact h'
  | .ok (.err (.failure _)) => exact calm_err
  | .panic k => exact absurd rfl (h.1 k)
  | .fuel => exact calm_fuel

theorem Calm.returnError (h : Calm P Q x) : Calm P Q (Res.returnError x) := by
  match x with
  | .ok (.done r a) => exact h
  | .ok (.err (.error _)) => exact calm_err
  | .ok (.err (.failure _)) => exact calm_err
  | .panic k => exact absurd rfl (h.1 k)
  | .fuel => exact calm_fuel

theorem calm_tag (h : InBlock P i) {w : Str} (hw : AsciiS w) : Calm P (InBlock P) (Nom.tag w i) := by
  obtain ⟨t, h⟩ := h
  by_cases hp : w <+: textOf t
  · obtain ⟨r, q, e1, e2, e3⟩ := (Nom.tag_at h hw).1 hp
    rw [e1]; exact calm_done ⟨_, e2⟩ ⟨_, e3⟩
  · rw [(Nom.tag_at h hw).2 hp]; exact calm_err

theorem calm_tagNoCase (h : InBlock P i) {w : Str} (hw : AsciiS w) : Calm P (InBlock P) (Nom.tagNoCase w i) := by
  obtain ⟨t, h⟩ := h
  by_cases hp : w.map lower <+: (textOf t).map lower
  · obtain ⟨r, q, e1, e2, e3⟩ := (Nom.tagNoCase_at h hw).1 hp
    rw [e1]; exact calm_done ⟨_, e2⟩ ⟨_, e3⟩
  · rw [(Nom.tagNoCase_at h hw).2 hp]; exact calm_err

theorem calm_char (h : InBlock P i) {c : Char} (hc : isAscii c = true) : Calm P (fun _ => True) (Nom.char c i) := by
  obtain ⟨t, h⟩ := h
  by_cases hp : (textOf t).head? = some c
  · cases t with
    | nil => cases hp
    | cons x t =>
      obtain ⟨d, l⟩ := x
      simp only [textOf_cons, List.head?_cons, Option.some.injEq] at hp
      subst hp
      obtain ⟨r, e1, e2⟩ := (Nom.char_at h hc).1 _ _ rfl
      rw [e1]; exact calm_done ⟨_, e2⟩ trivial
  · rw [(Nom.char_at h hc).2 hp]; exact calm_err

theorem calm_whitespace (h : InBlock P i) : Calm P (InBlock P) (whitespace i) := by
  obtain ⟨t, h⟩ := h
  obtain ⟨r, q, e1, e2, e3⟩ := whitespace_at h
  rw [e1]; exact calm_done ⟨_, e2⟩ ⟨_, e3⟩

theorem calm_takeTill (h : InBlock P i) (p : Char → Bool) : Calm P (InBlock P) (Nom.takeTill p i) := by
  obtain ⟨t, h⟩ := h
  obtain ⟨r, q, e1, e2, e3⟩ := Nom.takeTill_at h p
  rw [e1]; exact calm_done ⟨_, e2⟩ ⟨_, e3⟩

theorem calm_takeWhile (h : InBlock P i) (p : Char → Bool) : Calm P (InBlock P) (Nom.takeWhile p i) := by
  obtain ⟨t, h⟩ := h
  obtain ⟨r, q, e1, e2, e3⟩ := Nom.takeWhile_at h p
  rw [e1]; exact calm_done ⟨_, e2⟩ ⟨_, e3⟩

theorem calm_rest (h : InBlock P i) : Calm P (InBlock P) (Nom.rest i) := by
  obtain ⟨t, h⟩ := h
  obtain ⟨r, e1, e2⟩ := Nom.rest_at h
  rw [e1]; exact calm_done ⟨_, e2⟩ ⟨_, h⟩

theorem calm_parseAst (hm : Block.Mono P) (h : InBlock P i) : Calm P (fun _ => True) (parseAst i) := by
  obtain ⟨t, h⟩ := h
  obtain ⟨o, ho⟩ := reads_exists t
  have := parseAst_at hm h ho
  cases o with
  | ok es =>
    obtain ⟨r, a, e, h1, _⟩ := this
    rw [e]; exact calm_done ⟨_, h1⟩ trivial
  | error k => rw [this.1]; exact calm_err

/-! ### Conditionals and directives -/

theorem calm_condKeyword (h : InBlock P i) : Calm P (fun _ => True) (condKeyword i) := by
  unfold condKeyword
  refine (calm_whitespace h).andThen fun i _ h _ => ?_
  have e : ∀ (w : String) (t : CondType), AsciiS w.toList →
      Calm P (fun _ => True) ((Nom.tagNoCase w.toList i).mapP fun _ => t) :=
    fun w t hw => (calm_tagNoCase h hw).mapP fun _ _ => trivial
  refine Calm.andThen (Q := fun _ => True) ?_ fun i _ h _ =>
    (calm_whitespace h).andThen fun i _ h _ => calm_done h trivial
  exact (e _ _ (by unfold AsciiS; decide)).orElse ((e _ _ (by unfold AsciiS; decide)).orElse
    ((e _ _ (by unfold AsciiS; decide)).orElse ((e _ _ (by unfold AsciiS; decide)).orElse
    ((e _ _ (by unfold AsciiS; decide)).orElse (e _ _ (by unfold AsciiS; decide))))))

theorem ifeqScan_le {c : Char} (t : Str) : ∀ (n : Nat) (count : Int) (k : Nat),
    ifeqScan c count (Span.indexed n t) = some k → k ≤ n + t.length := by
  induction t with
  | nil => intro n count k h; cases h
  | cons x t ih =>
    intro n count k h
    rw [indexed_cons, ifeqScan] at h
    have step : ∀ {count : Int}, ifeqScan c count (Span.indexed (n + 1) t) = some k → k ≤ n + (x :: t).length := by
      intro count h
      have := ih _ _ _ h
      simp only [List.length_cons]
      omega
    have here : some n = some k → k ≤ n + (x :: t).length := by
      intro h
      cases h
      omega
    split at h
    · exact step h
    · split at h
      · split at h
        · exact here h
        · exact step h
      · split at h
        · exact here h
        · exact step h

theorem calm_takeTillTerminator (h : InBlock P i) {c : Char} (hc : isAscii c = true) :
    Calm P (InBlock P) (takeTillTerminator c i) := by
  unfold takeTillTerminator
  split
  · obtain ⟨t, h⟩ := h
    rw [h.chars]
    dsimp only
    rw [withIndices_eq 0 h.ascii]
    split
    · rename_i k hk
      have hle := ifeqScan_le _ _ _ _ hk
      rw [Nat.zero_add, textOf_length] at hle
      obtain ⟨r, e1, e2⟩ := h.sliceFrom hle
      rw [e1, ok_bind]
      exact (calm_char ⟨_, e2⟩ hc).andThen fun _ _ h1 _ => calm_done h1 ⟨_, h.sliceTo hle⟩
    · exact calm_err
  · exact (calm_takeTill h _).andThen fun i q h hq => (calm_char h hc).andThen fun _ _ h1 _ => calm_done h1 hq

theorem calm_parseIfeq (hm : Block.Mono P) (h : InBlock P i) : Calm P (fun _ => True) (parseIfeq i) := by
  unfold parseIfeq
  have e : ∀ {i : Span}, InBlock P i → ∀ c d : Char, isAscii c = true → isAscii d = true →
      Calm P (fun x => isAscii x = true) ((Nom.char c i).mapP fun _ => d) :=
    fun h c d hc hd => (calm_char h hc).mapP fun _ _ => hd
  refine Calm.andThen (Q := fun x => isAscii x = true) ((e h _ _ (by decide) (by decide)).orElse
    ((e h _ _ (by decide) (by decide)).orElse (e h _ _ (by decide) (by decide)))) fun i c h hc => ?_
  refine (calm_takeTillTerminator h hc).andThen fun i a h ha => (calm_parseAst hm ha).andThen fun _ _ _ _ =>
    (calm_whitespace h).andThen fun i _ h _ => Calm.andThen (Q := fun x => isAscii x = true) ?_ fun i c h hc =>
    (calm_takeTillTerminator h hc).andThen fun i b h hb => (calm_parseAst hm hb).andThen fun _ _ _ _ =>
    calm_done h trivial
  split
  · exact calm_done h (by decide)
  · exact (e h _ _ (by decide) (by decide)).orElse (e h _ _ (by decide) (by decide))

theorem calm_parseCondF (hm : Block.Mono P) (n : Nat) : ∀ {i : Span}, InBlock P i →
    Calm P (fun _ => True) (parseCondF n i) := by
  induction n with
  | zero => intro i _; exact calm_fuel
  | succ n ih =>
    intro i h
    unfold parseCondF
    refine (calm_condKeyword h).andThen fun i c h _ => ?_
    cases c with
    | ifDef => exact (calm_parseAst hm h).returnError.mapP fun _ _ => trivial
    | ifNDef => exact (calm_parseAst hm h).returnError.mapP fun _ _ => trivial
    | ifEq => exact (calm_parseIfeq hm h).mapP fun _ _ => trivial
    | ifNEq => exact (calm_parseIfeq hm h).mapP fun _ _ => trivial
    | else_ =>
      refine (calm_whitespace h).andThen fun i _ h _ => ?_
      split
      · refine (ih h).returnError.andThen fun i c h _ => ?_
        cases c <;> first | exact calm_err | exact calm_done h trivial
      · exact calm_done h trivial
    | endIf =>
      dsimp only
      split
      · exact calm_err
      · exact calm_done h trivial

theorem calm_parseDirectiveLine (hm : Block.Mono P) (h : InBlock P i) :
    Calm P (fun _ => True) (parseDirectiveLine i) := by
  unfold parseDirectiveLine
  have e : ∀ (w : String) (f : Ast → Directive), AsciiS w.toList →
      Calm P (fun _ => True) ((Nom.tagNoCase w.toList i).andThen fun i _ => (parseAst i).mapP f) :=
    fun w f hw => (calm_tagNoCase h hw).andThen fun _ _ h _ => (calm_parseAst hm h).mapP fun _ _ => trivial
  exact (e _ _ (by unfold AsciiS; decide)).orElse ((e _ _ (by unfold AsciiS; decide)).orElse
    ((e _ _ (by unfold AsciiS; decide)).orElse ((e _ _ (by unfold AsciiS; decide)).orElse
    ((e _ _ (by unfold AsciiS; decide)).orElse ((e _ _ (by unfold AsciiS; decide)).orElse
    ((e _ _ (by unfold AsciiS; decide)).orElse (e _ _ (by unfold AsciiS; decide))))))))

/-! ### Words -/

theorem mwordScan_le (s : Str) : ∀ (mode : MWordMode) (prev : Char) (stop n : Nat) (reason : MWordEnd), stop ≤ n →
    ∃ k e, mwordScan false mode prev stop reason (Span.indexed n s) = .ok (k, e) ∧ k ≤ n + s.length := by
  induction s with
  | nil => intro mode prev stop n reason h; exact ⟨_, _, rfl, by simpa using h⟩
  | cons c s ih =>
    intro mode prev stop n reason h
    have stay : ∀ (mode : MWordMode) (prev : Char) (k : Nat) (reason : MWordEnd), k ≤ n + 1 →
        ∃ k' e, mwordScan false mode prev k reason (Span.indexed (n + 1) s) = .ok (k', e) ∧ k' ≤ n + (c :: s).length := by
      intro mode prev k reason hk
      obtain ⟨k', e, e1, e2⟩ := ih mode prev k (n + 1) reason hk
      exact ⟨k', e, e1, by simp only [List.length_cons]; omega⟩
    have stopAt : ∀ (k : Nat) (e : MWordEnd), k ≤ n + 1 →
        ∃ k' e', (.ok (k, e) : Res (Nat × MWordEnd)) = .ok (k', e') ∧ k' ≤ n + (c :: s).length :=
      fun k e hk => ⟨k, e, rfl, by simp only [List.length_cons]; omega⟩
    rw [indexed_cons, mwordScan.eq_def]
    cases mode <;> dsimp only <;> (repeat' split) <;>
      first
      | exact stay _ _ _ _ (by omega)
      | exact stopAt _ _ (by omega)
      | simp_all

theorem calm_nextMword (h : InBlock P i) : Calm P (fun x => InBlock P x.1) (nextMword i) := by
  unfold nextMword
  refine (calm_whitespace h).andThen fun i _ h _ => ?_
  have e : ∀ (w : String) (t : MWordEnd), AsciiS w.toList →
      Calm P (fun x => InBlock P x.1) ((Nom.tag w.toList i).mapP fun c => (c, t)) :=
    fun w t hw => (calm_tag h hw).mapP fun _ h => h
  refine (e _ _ (by unfold AsciiS; decide)).orElse ((e _ _ (by unfold AsciiS; decide)).orElse
    ((e _ _ (by unfold AsciiS; decide)).orElse ((e _ _ (by unfold AsciiS; decide)).orElse
    ((e _ _ (by unfold AsciiS; decide)).orElse ((e _ _ (by unfold AsciiS; decide)).orElse
    ((e _ _ (by unfold AsciiS; decide)).orElse ((e _ _ (by unfold AsciiS; decide)).orElse
    ((e _ _ (by unfold AsciiS; decide)).orElse ?_))))))))
  obtain ⟨t, h⟩ := h
  rw [h.chars]
  dsimp only
  rw [withIndices_eq 0 h.ascii]
  obtain ⟨k, r, e1, e2⟩ := mwordScan_le (textOf t) .normal (Char.ofNat 0) 0 0 .static (Nat.le_refl _)
  rw [Nat.zero_add, textOf_length] at e2
  obtain ⟨rest, cap, f1, f2, f3⟩ := h.takeSplit e2
  rw [e1, ok_bind]
  dsimp only
  rw [f1, ok_bind]
  exact calm_done ⟨_, f2⟩ ⟨_, f3⟩

/-! ### Recipe lines and lines of definitions -/

theorem calm_grabCommandLine {c : Char} (hc : isAscii c = true) (h : InBlock P i) :
    Calm P (fun x => InBlock P x.1) (grabCommandLine c i) := by
  unfold grabCommandLine
  refine (calm_char h hc).andThen fun i _ h _ => ?_
  obtain ⟨t, h⟩ := h
  obtain ⟨r, l, e1, e2, e3⟩ := grabLine_at h
  rw [e1]; exact calm_done ⟨_, e2⟩ ⟨_, e3⟩

theorem calm_parseBlock {b : Block} (hm : Block.Mono b) (hb : InBlock b b.span) {r : Span} (h : InBlock P r) :
    Calm P (fun _ => True) ((parseAst b.span).andThen fun _ ast => done r ast) := by
  have := calm_parseAst hm hb
  match hx : parseAst b.span with
  | .ok (.done _ a) => exact calm_done h trivial
  | .ok (.err e) => exact calm_err
  | .panic k => exact absurd hx (this.1 k)
  | .fuel => exact calm_fuel

theorem calm_recipeLoop {c : Char} (hc : isAscii c = true) (hP : P.content.length ≤ 1) (hm : Block.Mono P) (n : Nat) :
    ∀ {i : Span} {line : Block} {u : List LChar}, InBlock P i → Front u line → Block.Mono line →
      Calm P (fun _ => True) (recipeLoop c n i line) := by
  induction n with
  | zero => intros; exact calm_fuel
  | succ n ih =>
    intro i line u h hl hlm
    unfold recipeLoop
    rw [endsWithBackslash_at hl.at, ok_bind]
    obtain ⟨hb', hbm', hb0⟩ := hl.newline
    split
    · have hg := calm_grabCommandLine hc h
      match hx : grabCommandLine c i with
      | .ok (.done r (q, reason)) =>
        obtain ⟨h1, w, h2⟩ := hg.2 _ _ hx
        obtain ⟨cr, c1, c2, c3, c4, c5⟩ := Span.At.toContentReference h2
        have g := hb'.pushRef hb0 c2 c4
        have gm := Block.push_mono (hbm' hlm) (c5 hP hm)
        simp only [ok_bind, c1]
        split
        · exact calm_parseBlock gm ⟨_, g.at⟩ h1
        · exact ih h1 g gm
      | .ok (.err e) => exact calm_parseBlock (hbm' hlm) ⟨_, hb'.at⟩ h
      | .panic k => exact absurd hx (hg.1 k)
      | .fuel => exact calm_fuel
    · exact calm_parseBlock hlm ⟨_, hl.at⟩ h

theorem calm_recipeLine {c : Char} (hc : isAscii c = true) (hP : P.content.length ≤ 1) (hm : Block.Mono P)
    (h : InBlock P i) : Calm P (fun _ => True) (recipeLine c i) := by
  unfold recipeLine
  refine (calm_grabCommandLine hc h).andThen fun r x h1 h2 => ?_
  obtain ⟨q, reason⟩ := x
  obtain ⟨u, h2⟩ := h2
  dsimp only
  split
  · exact (calm_parseAst hm ⟨_, h2⟩).andThen fun _ _ _ _ => calm_done h1 trivial
  · obtain ⟨b, b1, b2, b3, _, b5, b6, b7⟩ := Span.At.toNewBlock h2
    rw [b1, ok_bind]
    exact calm_recipeLoop hc hP hm _ h1 (Buf.front ⟨b2, b5, b6⟩) (b7 hm)

theorem calm_parseDefineLine (hP : P.content.length ≤ 1) (hm : Block.Mono P) (h : i.At P t) (h0 : t ≠ [])
    (hh : (textOf t).head? ≠ some '#') : Calm P (fun _ => True) (parseDefineLine i) := by
  have key : ∃ r l a, grabDefineLine i = .ok (.done r l) ∧ InBlock P r ∧ l.At P a ∧ a ≠ [] := by
    by_cases hf : Free '#' t
    · by_cases hn : Free '\n' t
      · obtain ⟨r, l, e1, e2, e3⟩ := grabDefineLine_whole hP (line := t) (rest := []) (by simpa using h) (.last h0 hn)
          (by simpa using hf)
        exact ⟨r, l, t, e1, ⟨_, e2⟩, e3, h0⟩
      · obtain ⟨a, loc, b, rfl, ha⟩ := first_split hn
        obtain ⟨r, l, e1, e2, e3⟩ := grabDefineLine_whole hP (line := a ++ [('\n', loc)]) (rest := b) (by simpa using h)
          (.feed ha) (by simpa using hf)
        exact ⟨r, l, _, e1, ⟨_, e2⟩, e3, by simp⟩
    · obtain ⟨a, loc, b, rfl, ha⟩ := first_split hf
      obtain ⟨r, l, e1, e2, e3⟩ := (grabDefineLine_at h).1 a loc b rfl ha
      refine ⟨r, l, a, e1, ⟨_, e2⟩, e3, ?_⟩
      rintro rfl
      exact hh rfl
  obtain ⟨r, l, a, e1, e2, e3, e4⟩ := key
  have hloc := Span.location_mono e3.good (by rw [e3.parent]; exact hm)
  rw [e3.ltext] at hloc
  obtain ⟨x, a, rfl⟩ : ∃ x b, a = x :: b := List.exists_cons_of_ne_nil e4
  unfold parseDefineLine
  simp only [e1, done_andThen, hloc, List.head?_cons, Option.map_some, runwrap, ok_bind]
  refine (calm_parseAst hm ⟨_, e3⟩).andThen fun _ _ _ _ => (calm_whitespace ⟨_, e3⟩).andThen fun i _ h _ =>
    Calm.andThen (Q := fun _ => True) ?_ fun i _ h _ => (calm_takeWhile h _).andThen fun i _ h _ => ?_
  · exact ((calm_tag h (by unfold AsciiS; decide)).mapP fun _ _ => trivial).orElse
      (((calm_tag h (by unfold AsciiS; decide)).mapP fun _ _ => trivial).orElse ((calm_rest h).mapP fun _ _ => trivial))
  · split
    · exact calm_err
    · exact calm_done e2 trivial

end Hastur
