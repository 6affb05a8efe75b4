import Verif.Spec.Steps
import Verif.Proofs.Demo
/-
Properties of reading makefiles line by line: C40.
-/
namespace Hastur

open Res

/-! ## C40: every line makes progress -/

/-- **C40.**  Whatever the parser state, a line read from a non-empty ASCII text leaves a strictly shorter suffix of the
text to be read. -/
theorem C40_progress {fs : Fs} {r : Rec} {P : Block} {t : List LChar} {i j : Span} {p p' : PState} {st st' : St}
    (hi : i.At P t) (hne : t ≠ []) (hc : isAscii st.commandChar = true)
    (h : parseLine fs r p st i = .ok (.done j (), p', st')) :
    ∃ eaten rest, t = eaten ++ rest ∧ eaten ≠ [] ∧ j.At P rest := by
  obtain ⟨rest, h1, ⟨eaten, rfl⟩, h3⟩ := parseLine_done hc hi hne h
  refine ⟨eaten, rest, rfl, ?_, h1⟩
  rintro rfl
  simp at h3

/-- Lines keep to the text and to the command character. -/
private theorem lines_at {fs : Fs} {n : Nat} {P : Block} {t : List LChar} {i j : Span} {p p' : PState} {st st' : St}
    (hl : LineSteps fs (recF fs n) i p st j p' st') (hi : i.At P t) (hc : isAscii st.commandChar = true) :
    (∃ rest, rest <:+ t ∧ j.At P rest) ∧ isAscii st'.commandChar = true := by
  induction hl generalizing t with
  | nil => exact ⟨⟨t, List.suffix_refl _, hi⟩, hc⟩
  | @cons i j k p p1 p' st st1 st' h0 h _ ih =>
    have hne : t ≠ [] := by
      rintro rfl
      exact h0 (by rw [hi.length]; rfl)
    obtain ⟨rest, h1, h2, _⟩ := parseLine_done hc hi hne h
    have hk := parseLine_keeps (commandChar_inv st.commandChar) (recF_keeps (commandChar_inv st.commandChar) fs n) fs p st i rfl
    rw [h] at hk
    obtain ⟨⟨rest', h3, h4⟩, h5⟩ := ih h1 (by rw [show st1.commandChar = st.commandChar from hk _ rfl]; exact hc)
    exact ⟨⟨rest', h3.trans h2, h4⟩, h5⟩

/-- **C40, termination.**  A budget of one line per character is enough to read an ASCII text: the loop over the lines
runs out of it only if the reading of a single line does not come to an end. -/
theorem C40_terminates {fs : Fs} {n : Nat} {P : Block} {t : List LChar} {i : Span} {p : PState} {st : St} {m : Nat}
    (hi : i.At P t) (hc : isAscii st.commandChar = true) (hm : t.length < m)
    (h : processLoop fs (recF fs n) m i p st = .fuel) :
    ∃ j p' st', LineSteps fs (recF fs n) i p st j p' st' ∧ parseLine fs (recF fs n) p' st' j = .fuel := by
  induction m generalizing t i p st with
  | zero => omega
  | succ m ih =>
    unfold processLoop at h
    by_cases h0 : i.length > 0
    · rw [if_pos h0] at h
      cases hp : parseLine fs (recF fs n) p st i with
      | fuel => exact ⟨i, p, st, .nil, hp⟩
      | panic c => rw [hp] at h; cases h
      | ok o =>
        obtain ⟨res, p1, st1⟩ := o
        rw [hp] at h
        cases res with
        | err e => cases h
        | done j u =>
          have hne : t ≠ [] := by
            rintro rfl
            rw [hi.length] at h0
            exact absurd h0 (by simp)
          have hl : LineSteps fs (recF fs n) i p st j p1 st1 := .cons (by omega) hp .nil
          obtain ⟨rest, h1, _, h3⟩ := parseLine_done hc hi hne hp
          obtain ⟨k, p', st', h4, h5⟩ := ih h1 (lines_at hl hi hc).2 (by omega) h
          exact ⟨k, p', st', .cons (by omega) hp h4, h5⟩
    · rw [if_neg h0] at h
      cases h

/-- **C40, order.**  Reading an ASCII text is reading its lines in order, from the first one on until nothing is left, in
states that are passed on from line to line. -/
theorem C40_in_order {fs : Fs} {n : Nat} {P : Block} {t : List LChar} {i : Span} {p : PState} {st st' : St} {m : Nat}
    (hi : i.At P t) (hc : isAscii st.commandChar = true) (hm : t.length < m) :
    processLoop fs (recF fs n) m i p st = .ok (.ok (), st') ↔
      ∃ j p', LineSteps fs (recF fs n) i p st j p' st' ∧ j.length = 0 := by
  induction m generalizing t i p st with
  | zero => omega
  | succ m ih =>
    unfold processLoop
    by_cases h0 : i.length > 0
    · rw [if_pos h0]
      have hne : t ≠ [] := by
        rintro rfl
        rw [hi.length] at h0
        exact absurd h0 (by simp)
      constructor
      · intro h
        obtain ⟨⟨res, p1, st1⟩, hp, h⟩ := Res.bind_eq_ok.mp h
        cases res with
        | err e => cases h
        | done j u =>
          have hl : LineSteps fs (recF fs n) i p st j p1 st1 := .cons (by omega) hp .nil
          obtain ⟨rest, h1, _, h3⟩ := parseLine_done hc hi hne hp
          obtain ⟨k, p', h4, h5⟩ := (ih h1 (lines_at hl hi hc).2 (by omega)).mp h
          exact ⟨k, p', .cons (by omega) hp h4, h5⟩
      · rintro ⟨k, p', hl, hk⟩
        cases hl with
        | nil => omega
        | @cons _ j _ _ p1 _ _ st1 _ _ hp hl' =>
          have hl : LineSteps fs (recF fs n) i p st j p1 st1 := .cons (by omega) hp .nil
          obtain ⟨rest, h1, _, h3⟩ := parseLine_done hc hi hne hp
          simp only [hp, ok_bind]
          exact (ih h1 (lines_at hl hi hc).2 (by omega)).mpr ⟨k, p', hl', hk⟩
    · rw [if_neg h0]
      constructor
      · intro h
        cases h
        exact ⟨i, p, .nil, by omega⟩
      · rintro ⟨k, p', hl, hk⟩
        cases hl with
        | nil => rfl
        | cons h1 => omega

private def two : Str := "a = 1\n\nb = 2\n".toList

/-- The three lines of a small file are read in order, and then nothing is left. -/
example (fs : Fs) : ∃ n j p' st', LineSteps fs (recF fs n) (textBlock .synthetic two).span PState.new St.init j p' st' ∧
    j.length = 0 := by
  have hi := textBlock_at (loc := .synthetic) (t := two) (by unfold AsciiS; decide)
  have hb : ∃ n, ∃ x, processLoop fs (recF fs n) (two.length + 1) (textBlock .synthetic two).span PState.new St.init =
      .ok (.ok (), x) := by
    have f2 := assignFile_locate (l := .synthetic) (line := "b = 2".toList) (name := ['b']) (gap := [' ']) (op := ['='])
      (gap' := [' ']) (value := ['2']) (rest := []) (ty := .recursive) rfl (by decide) (by simp) (by decide)
      (by unfold condWords; decide) (by decide) (by unfold NameChar; decide) (by decide) .recursive (by decide) (by simp)
      (by simp) (reads_text (free_locate (by decide))) .nil
    have f1 := assignFile_locate (l := .synthetic) (line := "a = 1".toList) (name := ['a']) (gap := [' ']) (op := ['='])
      (gap' := [' ']) (value := ['1']) (rest := "\nb = 2\n".toList) (ty := .recursive) rfl (by decide) (by simp) (by decide)
      (by unfold condWords; decide) (by decide) (by unfold NameChar; decide) (by decide) .recursive (by decide) (by simp)
      (by simp) (reads_text (free_locate (by decide))) (assignFile_blank f2)
    obtain ⟨st', h1, _⟩ := proc_assigns fs (by simp [textBlock]) (textBlock_mono _ _) f1 (p := PState.new) (st := St.init) hi
      (free_locate (by decide)) rfl rfl rfl rfl St.init_wf
      (.recursive (denotes_locate (by decide)) (.recursive (denotes_locate (by decide)) .nil))
    obtain ⟨N, hN⟩ := h1.loop
    exact ⟨N, st', hN N (Nat.le_refl _) _ (by rw [hi.length, locate_length]; omega)⟩
  obtain ⟨n, x, hx⟩ := hb
  obtain ⟨j, p', h1, h2⟩ := (C40_in_order hi rfl (by rw [locate_length]; omega)).mp hx
  exact ⟨n, j, p', x, h1, h2⟩

private def isFuel {α : Type} : Res α → Bool
  | .fuel => true
  | _ => false

private theorem isFuel_iff {α : Type} {x : Res α} (h : isFuel x = true) : x = .fuel := by
  cases x with
  | fuel => rfl
  | ok a => cases h
  | panic c => cases h

/-- Without any budget for evaluations, it is the first line of this file that does not come to an end. -/
example : ∃ j p' st', LineSteps (fun _ => .missing) (recF (fun _ => .missing) 0) (textBlock .synthetic "a := 1\n".toList).span
    PState.new St.init j p' st' ∧ parseLine (fun _ => .missing) (recF (fun _ => .missing) 0) p' st' j = .fuel :=
  C40_terminates (m := 8) (textBlock_at (loc := .synthetic) (t := "a := 1\n".toList) (by unfold AsciiS; decide)) rfl
    (by simp) (isFuel_iff (by decide +kernel))

/-- A line of a rule that is being collected, and what it leaves to be read. -/
example (fs : Fs) (r : Rec) {l : Location} {p p' : PState} {st' : St} {j : Span}
    (h : parseLine fs r p St.init (textBlock l "\techo\nx\n".toList).span = .ok (.done j (), p', st')) :
    ∃ eaten rest, locate l "\techo\nx\n".toList = eaten ++ rest ∧ eaten ≠ [] ∧
      j.At (textBlock l "\techo\nx\n".toList) rest :=
  C40_progress (textBlock_at (by unfold AsciiS; decide)) (by simp [locate]) rfl h

end Hastur
