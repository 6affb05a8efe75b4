import Verif.Proofs.IncludeCycle
import Verif.Proofs.Program
/-
C87: makefiles that include each other without end.
-/
namespace Hastur

open Res

/-- C87: in a set of situations (a file, and the state from which it is read) in which reading each file comes to reading
another one of the set, no depth of nesting suffices to read any of the files.  It neither returns nor aborts nor reports
an error. -/
theorem C87_cycle (fs : Fs) (S : Str → St → Prop) (h : ∀ f st, S f st → ∃ g st2, FileComesTo fs f st g st2 ∧ S g st2)
    {f : Str} {st : St} (hs : S f st) : ∀ n, readF fs n (fs f) f st = .fuel := by
  intro n
  induction n generalizing f st with
  | zero =>
    obtain ⟨g, st2, ⟨s, b, hf, _, h1, _⟩, _⟩ := h f st hs
    rw [hf]
    unfold readF readMakefile
    simp only [h1, ok_bind]
    rfl
  | succ n ih =>
    obtain ⟨g, st2, h1, h2⟩ := h f st hs
    obtain ⟨_, _, ⟨s, _, hg, _⟩, _⟩ := h g st2 h2
    exact h1.read hg (ih h2)

private theorem include_line {kw args : Str} (hk : kw.map lower ∈ ["include".toList, "sinclude".toList, "-include".toList])
    (l l' : Location) :
    ∃ soft, IncludeText (locate l kw ++ locate l' args) soft (locate l' args) := by
  simp only [List.mem_cons, List.not_mem_nil, or_false] at hk
  rcases hk with hk | hk
  · exact ⟨false, .hard (by rw [textOf_locate]; exact hk)⟩
  · refine ⟨true, .soft ?_⟩
    rw [textOf_locate]
    rcases hk with hk | hk <;> rw [hk] <;> simp

private theorem keyword_facts {kw : Str} (hk : kw.map lower ∈ ["include".toList, "sinclude".toList, "-include".toList]) :
    '\n' ∉ kw ∧ '=' ∉ kw ∧ '\\' ∉ kw ∧ kw ≠ [] ∧ (∀ c, kw.head? = some c → ¬ (c = ' ' ∨ c = '\t')) ∧
      ∀ w ∈ varWords, ∀ u, ¬ w <+: kw.map lower ++ u := by
  have mem : ∀ c, c ∈ kw → lower c ∈ kw.map lower := fun c hc => List.mem_map_of_mem hc
  have h1 : ∀ c ∈ ['\n', '=', '\\', ' ', '\t'], c ∉ kw := by
    intro c hc hm
    have hm := mem c hm
    simp only [List.mem_cons, List.not_mem_nil, or_false] at hk hc
    rcases hk with hk | hk | hk <;> rw [hk] at hm <;> rcases hc with rfl | rfl | rfl | rfl | rfl <;> revert hm <;> decide
  refine ⟨h1 _ (by simp), h1 _ (by simp), h1 _ (by simp), ?_, ?_, ?_⟩
  · rintro rfl
    simp at hk
  · intro c hc
    have := List.mem_of_head? hc
    rintro (rfl | rfl)
    · exact h1 ' ' (by simp) this
    · exact h1 '\t' (by simp) this
  · intro w hw u hp
    obtain ⟨v, hv⟩ := hp
    have h2 : w.take 2 = (kw.map lower).take 2 := by
      have e := congrArg (List.take 2) hv
      have l1 : 2 ≤ w.length := (by unfold varWords; decide : ∀ w ∈ varWords, 2 ≤ w.length) w hw
      have l2 : 2 ≤ (kw.map lower).length := by
        simp only [List.mem_cons, List.not_mem_nil, or_false] at hk
        rcases hk with hk | hk | hk <;> rw [hk] <;> decide
      rwa [List.take_append_of_le_length l1, List.take_append_of_le_length l2] at e
    simp only [varWords, List.mem_cons, List.not_mem_nil, or_false] at hk hw
    rcases hk with hk | hk | hk <;> rw [hk] at h2 <;> rcases hw with rfl | rfl | rfl | rfl | rfl <;> revert h2 <;> decide

private theorem begins_comesTo {fs : Fs} {f g : Str} {st : St} (h : BeginsWithInclude fs f g) (hw : st.WF)
    (hc : isAscii st.commandChar = true) :
    FileComesTo fs f st g { st with names := (st.names.internFile f).2 } := by
  obtain ⟨kw, args, rest, h1, h2, h3, h4, h5, post, h6⟩ := h
  obtain ⟨k1, k2, k3, k4, k5, k6⟩ := keyword_facts h4
  obtain ⟨b, hfb, hb, hm, hat⟩ := fileBlock_spec (f := (st.names.internFile f).1) h2
  refine ⟨_, b, h1, h2, hfb, ?_⟩
  obtain ⟨soft, hi⟩ := include_line (args := args) h4 (.source 1 1 (st.names.internFile f).1)
    ((Location.source 1 1 (st.names.internFile f).1).after kw)
  rw [← locate_append] at hi
  have n1 : '\n' ∉ args := h5 _ (by simp)
  have n2 : '\\' ∉ args := h5 _ (by simp)
  have n3 : '$' ∉ args := h5 _ (by simp)
  have n4 : '=' ∉ args := h5 _ (by simp)
  have n5 : Char.ofNat 0 ∉ args := h5 _ (by simp)
  have hts : trailingSlashes (kw ++ args) = 0 := by
    rw [← textOf_locate .synthetic (kw ++ args)]
    exact trailingSlashes_textOf (free_locate (by simp [k3, n2]))
  have hlog := logical_locate (l := .source 1 1 (st.names.internFile f).1) (line := kw ++ args) (rest := rest)
    (by simp [k1, n1]) (by rw [List.head?_append_of_ne_nil _ k4]; exact k5) (by rw [hts])
  refine .include_ (pre := []) (post := post) (vs := []) ⟨⟨hb, hm, hat, hlog, free_locate h3, rfl, hc, ?_⟩, rfl, rfl⟩ hi
    (not_varLike (by rw [textOf_locate]; simp [k2, n4]) ?_) (reads_text (free_locate n3)) (Expands.text _ _) ?_ .done
  · exact hw.after rfl (cs := [.file f]) rfl
  · intro w hww
    rw [textOf_locate, List.map_append]
    exact k6 w hww _
  · have := PlainNames.names (t := locate ((Location.source 1 1 (st.names.internFile f).1).after kw) args)
      ⟨free_locate n2, free_locate n5⟩
    rw [h6] at this
    exact this

/-- C87: when each file of a set begins with an include line, hard or soft, that names a file of the set first, none of
them can be read, from whatever state. -/
theorem C87_first_lines (fs : Fs) (S : Str → Prop) (h : ∀ f, S f → ∃ g, S g ∧ BeginsWithInclude fs f g) {f : Str} {st : St}
    (hs : S f) (hw : st.WF) (hc : isAscii st.commandChar = true) : ∀ n, readF fs n (fs f) f st = .fuel := by
  refine C87_cycle fs (fun f st => S f ∧ st.WF ∧ isAscii st.commandChar = true) ?_ ⟨hs, hw, hc⟩
  rintro f st ⟨hs, hw, hc⟩
  obtain ⟨g, hg, hb⟩ := h f hs
  exact ⟨g, _, begins_comesTo hb hw hc, hg, hw.after rfl (cs := [.file f]) rfl, hc⟩

/-- C87 for a single file: a makefile that begins by including itself cannot be read. -/
theorem C87_self (fs : Fs) {f : Str} {st : St} (h : BeginsWithInclude fs f f) (hw : st.WF)
    (hc : isAscii st.commandChar = true) : ∀ n, readF fs n (fs f) f st = .fuel :=
  C87_first_lines fs (· = f) (fun _ e => ⟨f, rfl, e ▸ h⟩) rfl hw hc

/-! ### Examples -/

/-- Two files that include each other; `f` includes further files. -/
private def circle : Fs := fun f =>
  if f = ['f'] then .text "include g h\nx=1\n".toList else if f = ['g'] then .text "-Include f\n".toList else .missing

private theorem circle_f : BeginsWithInclude circle ['f'] ['g'] :=
  ⟨"include".toList, " g h".toList, "x=1\n".toList, rfl, by unfold AsciiS; decide, by decide, by decide, by decide,
    [['h']], fun _ => rfl⟩

private theorem circle_g : BeginsWithInclude circle ['g'] ['f'] :=
  ⟨"-Include".toList, " f".toList, [], rfl, by unfold AsciiS; decide, by decide, by decide, by decide, [], fun _ => rfl⟩

example : ∀ n, readF circle n (circle ['f']) ['f'] St.init = .fuel :=
  C87_first_lines circle (fun f => f = ['f'] ∨ f = ['g']) (by
    rintro f (rfl | rfl)
    · exact ⟨_, .inr rfl, circle_f⟩
    · exact ⟨_, .inl rfl, circle_g⟩) (.inl rfl) St.init_wf rfl

private def selfish : Fs := fun f => if f = ['f'] then .text "sinclude f\n".toList else .missing

example : ∀ n, readF selfish n (selfish ['f']) ['f'] St.init = .fuel :=
  C87_self selfish ⟨"sinclude".toList, " f".toList, [], rfl, by unfold AsciiS; decide, by decide, by decide, by decide, [],
    fun _ => rfl⟩ St.init_wf rfl

/-- The include line need not be the first one, and other files may be named before: an empty line, and then
`-include m f`, where `m` is missing. -/
private def late : Fs := fun f => if f = ['f'] then .text "\n-include m f\n".toList else .missing

example : ∀ n, readF late n (late ['f']) ['f'] St.init = .fuel := by
  refine C87_cycle late (fun f st => f = ['f'] ∧ st.WF ∧ isAscii st.commandChar = true) ?_ ⟨rfl, St.init_wf, rfl⟩
  rintro f st ⟨rfl, hw, hc⟩
  have hw' : ({ st with names := (st.names.internFile ['f']).2 } : St).WF := hw.after rfl (cs := [.file ['f']]) rfl
  have hs : AsciiS "\n-include m f\n".toList := by unfold AsciiS; decide
  obtain ⟨b, hfb, hb, hm, hat⟩ := fileBlock_spec (f := (st.names.internFile ['f']).1) hs
  refine ⟨['f'], { st with names := (st.names.internFile ['f']).2 }, ⟨_, b, rfl, hs, hfb, ?_⟩, rfl, hw', hc⟩
  have hlog := logical_locate (l := .source 1 1 (st.names.internFile ['f']).1) (line := []) (rest := "-include m f\n".toList)
    (by decide) (by simp) (by decide)
  obtain ⟨j, hj, e⟩ := parseLine_blank late (recF late 0) hat hlog (free_locate (by decide)) (p := PState.new)
    (st := { st with names := (st.names.internFile ['f']).2 }) rfl hc (.inl rfl)
  refine .line (rest := locate (.source 2 1 (st.names.internFile ['f']).1) "-include m f\n".toList) hat (by simp [locate])
    (p' := PState.new) (st' := { st with names := (st.names.internFile ['f']).2 }) ?_ ?_
  · refine ⟨0, j, hj, fun n _ => (parseLine_le (recF_le late (Nat.zero_le n)) _ _ _ _).ok e⟩
  · intro j hj
    have hlog := logical_locate (l := .source 2 1 (st.names.internFile ['f']).1) (line := "-include m f".toList) (rest := [])
      (by decide) (by simp) (by decide)
    refine .include_ (soft := true) (pre := [['m']]) (post := []) (vs := []) (line := locate _ "-include m f".toList)
      (args := locate ((Location.source 2 1 (st.names.internFile ['f']).1).after "-include".toList) " m f".toList)
      ⟨⟨hb, hm, hj, hlog, free_locate (by decide), rfl, hc, hw'⟩, rfl, rfl⟩
      ?_ (not_varLike (by rw [textOf_locate]; decide) (by rw [textOf_locate]; unfold varWords; decide))
      (reads_text (free_locate (by decide))) (Expands.text _ _)
      (PlainNames.names ⟨free_locate (by decide), free_locate (by decide)⟩) (.skip rfl rfl .done)
    have := IncludeText.soft (kw := locate (.source 2 1 (st.names.internFile ['f']).1) "-include".toList)
      (args := locate ((Location.source 2 1 (st.names.internFile ['f']).1).after "-include".toList) " m f".toList)
      (by rw [textOf_locate]; decide)
    rw [← locate_append] at this
    exact this

/-- The include line may follow a rule, which is then completed: `a: b`, and then `include f`. -/
private def ruled : Fs := fun f => if f = ['f'] then .text "a: b\ninclude f\n".toList else .missing

example : ∀ n, readF ruled n (ruled ['f']) ['f'] St.init = .fuel := by
  refine C87_cycle ruled (fun f st => f = ['f'] ∧ st.WF ∧ RulesKnown st.db st.names ∧ st.commandChar = '\t') ?_
    ⟨rfl, St.init_wf, ⟨⟨List.nodup_nil, List.nodup_nil⟩, fun f r h => by cases h⟩, rfl⟩
  rintro f st ⟨rfl, hw, hk, hc⟩
  have ha : isAscii st.commandChar = true := by rw [hc]; rfl
  have hR : Reflects ⟨_, _, [], none⟩ PState.new { st with names := (st.names.internFile ['f']).2 } :=
    ⟨rfl, rfl, rfl, by simp [PState.new, AllTaken], rfl, .none, hw.after rfl (cs := [.file ['f']]) rfl,
      hk.after [.file ['f']]⟩
  have hs : AsciiS "a: b\ninclude f\n".toList := by unfold AsciiS; decide
  obtain ⟨b, hfb, hb, hm, hat⟩ := fileBlock_spec (f := (st.names.internFile ['f']).1) hs
  have wa : WordList (locate (.source 1 1 (st.names.internFile ['f']).1) ['a'])
      [locate (.source 1 1 (st.names.internFile ['f']).1) ['a']] :=
    wordList_one (by simp [locate]) (mem_locate (by unfold WordChar; decide))
  obtain ⟨tt, hT, _⟩ := targets_words (St.vars { st with names := (st.names.internFile ['f']).2 }).env wa
  have hds : ∀ x ∈ locate (.source 1 3 (st.names.internFile ['f']).1) " b".toList, WordChar x.1 ∨ x.1 = ' ' ∨ x.1 = '\t' :=
    mem_locate (q := fun c => WordChar c ∨ c = ' ' ∨ c = '\t') (by unfold WordChar; decide)
  have hdrop : textOf ((locate (.source 1 3 (st.names.internFile ['f']).1) " b".toList).dropWhile lblank) = ['b'] := rfl
  obtain ⟨p1, st1, g1, g2, g3⟩ := steps_rule ruled hb hm hR hat (free_locate (by decide)) ha (by simp [AllTaken]) (.inl rfl)
    (physical_locate (line := "a: b".toList) (rest := "include f\n".toList) (by decide) (by simp) (by decide))
    (by rw [textOf_locate, show St.commandChar _ = '\t' from hc]; decide)
    (not_condLike (by simp) (by unfold condWords; decide))
    (not_varLike (by rw [textOf_locate]; decide) (by rw [textOf_locate]; unfold varWords; decide))
    (by rintro ⟨w, hw, hp⟩; rw [textOf_locate] at hp; revert w; unfold directiveWords; decide)
    (.plain (ts := locate (.source 1 1 (st.names.internFile ['f']).1) ['a'])
      (cs := locate (.source 1 2 (st.names.internFile ['f']).1) [':'])
      (ds := locate (.source 1 3 (st.names.internFile ['f']).1) " b".toList) (double := false) (textOf_locate _ _)
      (mem_locate (q := fun c => c ∉ [':', '=', ';', '#', '\\']) (by decide)))
    (not_varLike (by rw [hdrop]; decide) (by rw [hdrop]; unfold varWords; decide)) hT (reads_names hds) (Expands.text _ _) (fileNames_of hds) .none
  obtain ⟨p2, st2, cs, k1, k2, _, _, k5, _⟩ := g2.close
  have c1 : st1.commandChar = '\t' := g3.trans hc
  refine ⟨['f'], st2, ⟨_, b, rfl, hs, hfb, ?_⟩, rfl, k2.wf, k2.known, k5.trans c1⟩
  refine .line hat (by simp [locate]) g1 fun j hj => ?_
  refine .afterRule (soft := false) (pre := []) (post := []) (vs := [])
    (line := locate (.source 2 1 (st.names.internFile ['f']).1) "include f".toList)
    (args := locate ((Location.source 2 1 (st.names.internFile ['f']).1).after "include".toList) " f".toList)
    ⟨hb, hm, hj, logical_locate (line := "include f".toList) (rest := []) (by decide) (by simp) (by decide),
      free_locate (by decide), g2.define, by rw [c1]; rfl, g2.wf⟩ (g2.active (by simp [AllTaken, MakeState.close]))
    (by rw [textOf_locate, c1]; decide) k1 k2.wf ?_
    (not_varLike (by rw [textOf_locate]; decide) (by rw [textOf_locate]; unfold varWords; decide))
    (reads_text (free_locate (by decide))) (Expands.text _ _)
    (PlainNames.names ⟨free_locate (by decide), free_locate (by decide)⟩) .done
  have := IncludeText.hard (kw := locate (.source 2 1 (st.names.internFile ['f']).1) "include".toList)
    (args := locate ((Location.source 2 1 (st.names.internFile ['f']).1).after "include".toList) " f".toList)
    (by rw [textOf_locate]; decide)
  rw [← locate_append] at this
  exact this

end Hastur
