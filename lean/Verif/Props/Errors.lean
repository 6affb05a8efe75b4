import Verif.Spec.Steps
import Verif.Proofs.DemoCond
import Verif.Props.Conditional
import Verif.Props.Rules
/-
C45, C48: malformed makefiles and byte order marks.
-/
namespace Hastur

open Res Span

private def noFs : Fs := fun _ => .missing

/-! ### C45 -/

/-- The full claim: reading a text as a makefile in a fresh engine never aborts the process. -/
def C45_full : Prop :=
  ∀ (fs : Fs) (name text : Str) (n : Nat) (c : Panic), readF fs n (.text text) name St.init ≠ .panic c

/-- A single `endif` aborts the process. -/
theorem C45_refuted : ¬ C45_full := by
  intro h
  refine h noFs "Makefile".toList "endif\n".toList 1 .unimplemented ?_
  have : (match readF noFs 1 (.text "endif\n".toList) "Makefile".toList St.init with
    | .panic c => some c | _ => none) = some .unimplemented := by decide +kernel
  revert this
  cases readF noFs 1 (.text "endif\n".toList) "Makefile".toList St.init with
  | panic c => intro h; cases h; rfl
  | _ => intro h; cases h

private theorem loop_ok {fs : Fs} {r : Rec} {m : Nat} : ∀ {i : Span} {p : PState} {st st' : St} {x : Except MakefileError Unit},
    processLoop fs r m i p st = .ok (x, st') → x = .ok () := by
  induction m with
  | zero => intro i p st st' x h; cases h
  | succ m ih =>
    intro i p st st' x h
    unfold processLoop at h
    by_cases h0 : i.length > 0
    · rw [if_pos h0] at h
      obtain ⟨⟨res, p1, st1⟩, _, h2⟩ := Res.bind_eq_ok.mp h
      cases res with
      | err e => cases h2
      | done j u => exact ih h2
    · rw [if_neg h0] at h
      cases h
      rfl

/-- What the code does instead: no text whatsoever makes reading it return an error value. -/
theorem C45_never_an_error (fs : Fs) (name text : Str) (n : Nat) (st st' : St) (x : Except MakefileError Unit)
    (h : readF fs n (.text text) name st = .ok (x, st')) : x = .ok () := by
  unfold readF readMakefile at h
  obtain ⟨b, _, h2⟩ := Res.bind_eq_ok.mp h
  cases n with
  | zero => cases h2
  | succ n =>
    have h3 : processStep fs (recF fs n) b _ = .ok (x, st') := h2
    unfold processStep at h3
    obtain ⟨o, _, h4⟩ := Res.bind_eq_ok.mp h3
    cases o with
    | done i u => exact loop_ok h4
    | err e => cases h4

private theorem steps_abort {fs : Fs} {n : Nat} {P : Block} {i j : Span} {p p' p2 : PState} {st st' st2 : St} {e : NErr}
    (hs : LineSteps fs (recF fs n) i p st j p' st') : ∀ {t : List LChar} {m : Nat}, i.At P t → isAscii st.commandChar = true →
    t.length < m → j.length ≠ 0 → parseLine fs (recF fs n) p' st' j = .ok (.err e, p2, st2) →
    processLoop fs (recF fs n) m i p st = .panic .unimplemented := by
  induction hs with
  | @nil i p st =>
    intro t m hi _ hm h0 h
    obtain ⟨m, rfl⟩ : ∃ k, m = k + 1 := ⟨m - 1, by omega⟩
    unfold processLoop
    rw [if_pos (by omega), h]
    rfl
  | @cons i j k p p1 p' st st1 st' h0 h1 _ ih =>
    intro t m hi hc hm hk h
    obtain ⟨m, rfl⟩ : ∃ k, m = k + 1 := ⟨m - 1, by omega⟩
    have hne : t ≠ [] := by
      rintro rfl
      exact h0 (by rw [hi.length]; rfl)
    obtain ⟨rest, g1, _, g3⟩ := parseLine_done hc hi hne h1
    have hkeep := parseLine_keeps (commandChar_inv st.commandChar) (recF_keeps (commandChar_inv st.commandChar) fs n) fs p st i rfl
    rw [h1] at hkeep
    unfold processLoop
    rw [if_pos (by omega), h1]
    exact ih g1 (by rw [show st1.commandChar = st.commandChar from hkeep _ rfl]; exact hc) (by omega) hk h

/-- What the code does instead: when the reading of a line returns an error, after any number of lines without one,
reading the file aborts the process.  (Which lines do so is said in C41, C43, C55.) -/
theorem C45_line_error_aborts (fs : Fs) (n : Nat) (name text : Str) (st : St) (ht : AsciiS text)
    (hc : isAscii st.commandChar = true) {b : Block} (hb : fileBlock (st.names.internFile name).1 text = .ok b)
    {j : Span} {p p2 : PState} {st1 st2 : St} {e : NErr}
    (hs : LineSteps fs (recF fs n) b.span PState.new { st with names := (st.names.internFile name).2 } j p st1)
    (hj : j.length ≠ 0) (h : parseLine fs (recF fs n) p st1 j = .ok (.err e, p2, st2)) :
    readF fs (n + 1) (.text text) name st = .panic .unimplemented := by
  obtain ⟨b', h1, h2, h3, h4⟩ := fileBlock_spec (f := (st.names.internFile name).1) ht
  cases h1.symm.trans hb
  unfold readF readMakefile
  simp only [h1, ok_bind]
  show processStep fs (recF fs n) b _ = _
  unfold processStep
  rw [char_bom h4, error_orElse]
  have hlen : b.len = _ := h4.length
  exact steps_abort hs h4 hc (by omega) hj h

/-- C45 for the makefiles that are described by `Makes`: assignments, rules, recipes and properly nested conditionals are
read without aborting.  Missing: makefiles that are malformed, which abort. -/
theorem C45_well_formed_partial (fs : Fs) {text name : Str} {st : St} {m : MakeState} (ht : AsciiS text)
    {body : List LChar} (hc : Headed (locate (.source 1 1 (st.names.internFile name).1) text) body)
    (hch : isAscii st.commandChar = true) (hw : st.WF) (hk : RulesKnown st.db st.names)
    (hm : Makes st.commandChar NoSwitch ⟨st.vars, st.ruleTable, [], none⟩ body m) :
    ∃ N st', ∀ n, N ≤ n → readF fs n (.text text) name st = .ok (.ok (), st') := by
  obtain ⟨st', ⟨N, h⟩, _⟩ := C44_completed_rules_partial fs ht hc hch hw hk hm
  exact ⟨N, st', h⟩

/-- C45 for input that is not text: this is reported as an error value, and nothing has happened. -/
theorem C45_unreadable_partial (fs : Fs) (n : Nat) (name : Str) (st : St) :
    readF fs n .unreadable name st = .ok (.error .ioError, st) := rfl

/-- The hypotheses of `C45_line_error_aborts` can be met, with an `endif` after an empty line. -/
example (n : Nat) : ∃ b, fileBlock (St.init.names.internFile ['M']).1 "\nendif\n".toList = .ok b ∧
    ∃ j p p2 st1 st2 e,
      LineSteps noFs (recF noFs n) b.span PState.new { St.init with names := (St.init.names.internFile ['M']).2 } j p st1 ∧
      j.length ≠ 0 ∧ parseLine noFs (recF noFs n) p st1 j = .ok (.err e, p2, st2) := by
  obtain ⟨b, h1, h2, h3, h4⟩ := fileBlock_spec (f := (St.init.names.internFile ['M']).1) (s := "\nendif\n".toList)
    (by unfold AsciiS; decide)
  have hw : ({ St.init with names := (St.init.names.internFile ['M']).2 } : St).WF :=
    St.init_wf.after (st' := { St.init with names := (St.init.names.internFile ['M']).2 }) rfl
      (cs := [.file ['M']]) rfl
  obtain ⟨j, h5, h6⟩ := parseLine_blank noFs (recF noFs n) (p := PState.new)
    (st := { St.init with names := (St.init.names.internFile ['M']).2 }) h4
    (logical_locate (line := []) (rest := "endif\n".toList) (by simp) (by simp) rfl) (free_locate (by decide)) rfl rfl (.inl rfl)
  have hl := h5.length
  refine ⟨b, h1, j, PState.new, _, _, _, _, .cons (by rw [h4.length]; simp [locate]) h6 .nil, by rw [hl]; simp [locate],
    C41_unattached_endif noFs (t := locate _ ("endif".toList ++ '\n' :: [])) ⟨h2, h3, h5, logical_locate (by decide) (by decide)
      (by decide), free_locate (by decide), rfl, rfl, hw⟩ (.inl rfl) condText_endif rfl _⟩

/-! ### C48 -/

/-- The byte order mark, U+FEFF. -/
def byteOrderMark : Char := Char.ofNat 0xFEFF

/-- The full claim: with a byte order mark in front, a makefile defines the same variables. -/
def C48_full : Prop :=
  ∀ (fs : Fs) (name text : Str) (st' : St), AsciiS text → FileGives fs name text St.init st' →
    ∃ st'', FileGives fs name (byteOrderMark :: text) St.init st'' ∧ ∀ x, (st''.lookup x).isSome = (st'.lookup x).isSome

private theorem fileBlock_whole (f : FileName) (s : Str) (h : s ≠ []) :
    fileBlock f s = .ok ⟨[], [CRef.ofNode (.constant ⟨.source 1 1 f, s⟩)]⟩ := by
  have hp : 0 < blen s := blen_pos.mpr h
  have ht : btake (blen s) s = .ok s := by simpa using btake_split s []
  have hz : (CRef.ofNode (.constant ⟨.source 1 1 f, s⟩)).length ≠ 0 := by
    show blen s ≠ 0
    omega
  have hs : LStr.slice ⟨.source 1 1 f, s⟩ 0 (blen s) = .ok ⟨.source 1 1 f, s⟩ := by
    unfold LStr.slice LStr.len
    simp [rassert, hp, btake, bdrop, ht, pure]
  have hr : simplifyRef 0 (CRef.ofNode (.constant ⟨.source 1 1 f, s⟩)) = .ok (CRef.ofNode (.constant ⟨.source 1 1 f, s⟩)) := by
    show (LStr.slice ⟨.source 1 1 f, s⟩ 0 (blen s) >>= _) = _
    rw [hs]
    rfl
  show Block.simplify _ = _
  unfold Block.simplify
  show (simplifyList (simplifyRef 0) _ >>= _) = _
  unfold simplifyList
  rw [if_neg hz, hr]
  rfl

private theorem limit_ascii {s : Str} (h : AsciiS s) {n : Nat} (hn : s.length ≤ n) : limitBytes n s false = ⟨s, false⟩ := by
  induction s generalizing n with
  | nil => cases n <;> rfl
  | cons c cs ih =>
    obtain ⟨m, rfl⟩ : ∃ m, n = m + 1 := ⟨n - 1, by simp at hn; omega⟩
    have h1 : c.utf8Size = 1 := utf8Size_ascii (h c (by simp))
    unfold limitBytes
    rw [if_pos (by omega), h1, Nat.add_sub_cancel, ih (fun d hd => h d (by simp [hd])) (by simp at hn; omega)]

private theorem limit_whole (s : Str) : limitBytes (blen s) s false = ⟨s, false⟩ := by
  induction s with
  | nil => rfl
  | cons c cs ih =>
    have h1 := Char.utf8Size_pos c
    obtain ⟨m, hm⟩ : ∃ m, blen (c :: cs) = m + 1 := ⟨c.utf8Size + blen cs - 1, by simp; omega⟩
    rw [hm]
    unfold limitBytes
    simp only [blen_cons] at hm
    rw [if_pos (by omega), show m + 1 - c.utf8Size = blen cs by omega, ih]

private theorem mark_span (f : FileName) {text : Str} (ht : AsciiS text) :
    let b : Block := ⟨[], [CRef.ofNode (.constant ⟨.source 1 1 f, byteOrderMark :: text⟩)]⟩
    ∃ i, Nom.char bom b.span = .ok (.done i ()) ∧ i.length = text.length ∧ i.chars = ⟨text.drop 2, false⟩ := by
  intro b
  have hn : blen text = text.length := blen_ascii ht
  have hl : blen (byteOrderMark :: text) = 3 + text.length := by rw [blen, hn]; rfl
  have hc : CRef.chars (CRef.ofNode (.constant ⟨.source 1 1 f, byteOrderMark :: text⟩)) = ⟨byteOrderMark :: text, false⟩ := by
    show refChars 0 (blen (byteOrderMark :: text)) ⟨byteOrderMark :: text, false⟩ = _
    unfold refChars CStream.take
    rw [hl, if_neg (by simp [CStream.skip]; omega)]
    rfl
  have hlen : b.len = 3 + text.length := by
    show [blen (byteOrderMark :: text)].sum = _
    simp [hn]
    rfl
  have hfirst : Nom.firstChar b.span = .ok (some byteOrderMark) := by
    have : b.span.chars = limitBytes (3 + text.length) ((⟨byteOrderMark :: text, false⟩ : CStream).skip 0 |>.append (CRef.charsList [])).items
        ((⟨byteOrderMark :: text, false⟩ : CStream).skip 0 |>.append (CRef.charsList [])).crash := by
      rw [← hc, ← hlen]
      rfl
    unfold Nom.firstChar
    rw [this]
    show (match limitBytes (3 + text.length) (byteOrderMark :: text ++ []) false with
      | ⟨c :: _, _⟩ => Res.ok (some c) | ⟨[], true⟩ => .panic .underflow | ⟨[], false⟩ => .ok none) = _
    rw [List.append_nil, ← hl, limit_whole]
  have hs : b.span.sliceFrom 3 = .ok ⟨b, 0, 3, text.length⟩ := by
    have hu : usub b.len 3 = .ok text.length := by
      unfold usub
      rw [hlen, if_pos (by omega)]
      simp
    show Res.bind (usub b.len 3) _ = _
    rw [hu]
    show Span.revalidate ⟨b, 0, 0 + 3, text.length⟩ = _
    unfold Span.revalidate
    by_cases h0 : text.length = 0
    · rw [if_pos h0]
    · rw [if_neg h0]
      show Res.bind (revalLoop [CRef.ofNode (.constant ⟨.source 1 1 f, byteOrderMark :: text⟩)] 0 3) _ = _
      unfold revalLoop
      rw [if_neg (show ¬ (CRef.ofNode (.constant ⟨.source 1 1 f, byteOrderMark :: text⟩)).length ≤ 3 from
        show ¬ blen (byteOrderMark :: text) ≤ 3 by omega)]
      rfl
  refine ⟨⟨b, 0, 3, text.length⟩, ?_, rfl, ?_⟩
  · unfold Nom.char
    rw [hfirst]
    show (Res.bind (b.span.sliceFrom 3) _) = _
    rw [hs]
    rfl
  · show limitBytes text.length ((CRef.chars (CRef.ofNode (.constant ⟨.source 1 1 f, byteOrderMark :: text⟩))).skip 3 |>.append
      (CRef.charsList [])).items _ = _
    rw [hc]
    show limitBytes text.length (text.drop 2 ++ []) false = _
    rw [List.append_nil, limit_ascii (fun c hc => ht c (List.mem_of_mem_drop hc)) (by simp)]

/-- What the code does: the mark is found, but three characters are skipped and not three bytes, so that two characters
of the makefile are lost. -/
theorem C48_skips_three_characters (f : FileName) (text : Str) (ht : AsciiS text) (fs : Fs) (r : Rec) (st : St) :
    ∃ (b : Block) (i : Span), fileBlock f (byteOrderMark :: text) = .ok b ∧
      processStep fs r b st = processLoop fs r (b.len + 1) i PState.new st ∧ i.chars = ⟨text.drop 2, false⟩ := by
  obtain ⟨i, h1, h2, h3⟩ := mark_span f ht
  refine ⟨_, i, fileBlock_whole f _ (by simp), ?_, h3⟩
  unfold processStep
  rw [h1]
  rfl

/-- C48 for a makefile that consists of the mark alone: it is processed like the empty makefile. -/
theorem C48_alone_partial (fs : Fs) (name : Str) (st : St) :
    FileGives fs name [byteOrderMark] st { st with names := (st.names.internFile name).2 } ∧
      FileGives fs name [] st { st with names := (st.names.internFile name).2 } := by
  constructor
  · refine ⟨1, fun n hn => ?_⟩
    obtain ⟨n, rfl⟩ : ∃ k, n = k + 1 := ⟨n - 1, by omega⟩
    unfold readF readMakefile
    simp only [fileBlock_whole (st.names.internFile name).1 [byteOrderMark] (by simp), ok_bind]
    show processStep fs (recF fs n) _ _ = _
    obtain ⟨i, h1, h2, h3⟩ := mark_span (st.names.internFile name).1 (text := []) (by intro c hc; cases hc)
    unfold processStep
    rw [h1]
    show processLoop fs (recF fs n) (_ + 1) i _ _ = _
    unfold processLoop
    rw [if_neg (by rw [h2]; simp)]
  · obtain ⟨P, i, _, _, h3, h4⟩ := read_of_proc (fs := fs) (name := name) (st := st) (s := []) (by intro c hc; cases hc)
    exact h4 PState.new _ (.done (by rw [h3.length]; rfl))

/-- C48, the other side: a text that does not begin with the mark is read from its first character on. -/
theorem C48_no_mark (fs : Fs) (r : Rec) (b : Block) (st : St) (c : Char) (rest : Str) (h : b.span.chars.items = c :: rest)
    (hc : c ≠ byteOrderMark) : processStep fs r b st = processLoop fs r (b.len + 1) b.span PState.new st := by
  have h1 : Nom.firstChar b.span = .ok (some c) := by
    unfold Nom.firstChar
    rw [show b.span.chars = ⟨c :: rest, b.span.chars.crash⟩ by rw [← h]]
  have hc : c ≠ bom := hc
  unfold processStep Nom.char
  rw [h1]
  simp only [ok_bind, if_neg hc]
  rfl

private def isDefined (n : Nat) (text : Str) (x : Str) : Res Bool := do
  let (_, st) ← readF noFs n (.text text) "Makefile".toList St.init
  return (st.lookup x).isSome

private theorem isDefined_gives {text x : Str} {n : Nat} {d : Bool} (h1 : isDefined n text x = .ok d) {st' : St}
    (h : FileGives noFs "Makefile".toList text St.init st') : (st'.lookup x).isSome = d := by
  obtain ⟨N, hN⟩ := h
  unfold isDefined at h1
  obtain ⟨⟨y, st1⟩, h2, h3⟩ := Res.bind_eq_ok.mp h1
  have e1 := hN (max N n) (by omega)
  have e2 : readF noFs (max N n) (.text text) "Makefile".toList St.init = .ok (y, st1) :=
    (readMakefile_le (recF_le noFs (show n ≤ max N n by omega)) _ _ _).ok h2
  rw [e1] at e2
  cases e2
  cases h3
  rfl

/-- The variable `x` of the makefile `x=1` gets lost. -/
theorem C48_refuted : ¬ C48_full := by
  intro h
  have h1 : isDefined 5 "x=1\n".toList ['x'] = .ok true := by decide +kernel
  have h2 : isDefined 5 (byteOrderMark :: "x=1\n".toList) ['x'] = .ok false := by decide +kernel
  have h3 : ∃ st', FileGives noFs "Makefile".toList "x=1\n".toList St.init st' := by
    unfold isDefined at h1
    obtain ⟨⟨y, st1⟩, h4, _⟩ := Res.bind_eq_ok.mp h1
    cases C45_never_an_error _ _ _ _ _ _ _ h4
    exact ⟨st1, 5, fun n hn => (readMakefile_le (recF_le noFs hn) _ _ _).ok h4⟩
  obtain ⟨st', h4⟩ := h3
  obtain ⟨st'', h5, h6⟩ := h noFs _ _ st' (by unfold AsciiS; decide) h4
  have := h6 ['x']
  rw [isDefined_gives h1 h4, isDefined_gives h2 h5] at this
  cases this

/-- A case of `C48_no_mark`. -/
example : ∃ (b : Block) (rest : Str), fileBlock ⟨0⟩ "x=1".toList = .ok b ∧ b.span.chars.items = 'x' :: rest ∧ 'x' ≠ byteOrderMark :=
  ⟨_, _, fileBlock_whole ⟨0⟩ "x=1".toList (by decide), rfl, by decide⟩

end Hastur
