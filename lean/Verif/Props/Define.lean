import Verif.Proofs.Program
import Verif.Proofs.RuleDemo
import Verif.Proofs.Keywords
/-
C50: `define` blocks.
-/
namespace Hastur

open Res

/-- The full claim: after a `define` line and the lines of its body, up to the `endef` that belongs to it, the variable has
the content of these lines; nothing else has changed.  Lines whose first word is `define` or `endef` are counted. -/
def C50_full : Prop :=
  ∀ (fs : Fs) (P : Block) (i : Span) (t line body rest : List LChar) (s : Str) (ty : AssignType) (es : List Expr) (p : PState)
    (st : St), Ready P i t line body p st → DefineHead st.env line s ty → DefineBody FirstWord 1 body es rest →
    ∃ st' pv, LinesGive fs P i p st rest p st' ∧ Assigned st st' s pv ∧ DefineStores st s ty es pv

/-- C50, where lines that begin with the letters `define` or `endef` count as keyword lines: after the block, the variable
has the content of the lines in between, and nothing else has changed. -/
theorem C50_define_partial (fs : Fs) {P : Block} {i : Span} {t line body rest : List LChar} {s : Str} {ty : AssignType}
    {es : List Expr} {p : PState} {st : St} (h : Ready P i t line body p st) (hd : DefineHead st.env line s ty)
    (hb : DefineBody Begins 1 body es rest) :
    ∃ st' pv, LinesGive fs P i p st rest p st' ∧ Assigned st st' s pv ∧ DefineStores st s ty es pv := by
  obtain ⟨us, hus⟩ := many_define fs h.toAtLine (.inl h.rule) h.active hd hb
  obtain ⟨j, st', pv, h1, h2, _, _, h5, h6⟩ := hus p (st.interned us) (by simp [PState.closeRule, h.rule])
    (h.wf.interned us) h.rule h.define ⟨[], rfl⟩
  obtain ⟨N, hN⟩ := h1.steps
  have hl : (st.interned us).lookup = st.lookup := h.wf.lookup_after rfl rfl
  obtain ⟨a1, a2, a3, a4, ⟨cs, a5⟩, a6⟩ := h5
  refine ⟨st', pv, ⟨N, j, h2, hN⟩, ⟨a1, fun x hx => by rw [a2 x hx, hl], a3, a4, ?_, a6⟩, ?_⟩
  · exact ⟨us.map .var ++ cs, by rw [a5, NameCache.after_append]; rfl⟩
  · cases h6 with
    | recursive => exact .recursive
    | conditional => exact .conditional
    | shell => exact .shell
    | simple => exact .simple
    | appendNew h => exact .appendNew (by rw [← hl]; exact h)
    | append h e => exact .append (by rw [← hl]; exact h) e

/-! ### Files -/

/-- A space or a tab. -/
private def blankChar (c : Char) : Bool := c == ' ' || c == '\t'

private theorem begins_locate {w s : Str} {l : Location} : Begins w (locate l s) ↔ w <+: s.dropWhile blankChar := by
  unfold Begins
  rw [show (locate l s).dropWhile lblank = (locate l s).dropWhile (fun x => blankChar x.1) from rfl, textOf_dropWhile,
    textOf_locate]

private theorem endef_locate {starts : Str → List LChar → Prop} {l : Location} {rest : Str} :
    DefineBody starts 1 (locate l ("endef\n".toList ++ rest)) [] (locate (l.after "endef\n".toList) rest) := by
  rw [locate_append]
  exact .done (.feed (body := locate l "endef".toList) (free_locate (by decide))) ⟨['\n'], rfl, by decide⟩

private theorem line_locate {l : Location} {s : Str} {rest : List LChar} (h : '\n' ∉ s) :
    WholeLine (locate l (s ++ ['\n'])) rest := by
  rw [locate_append]
  exact .feed (free_locate h)

private theorem equals {line name value : List LChar} {ty : AssignType} (h : AssignText line name ty value) :
    '=' ∈ textOf line := by
  cases h with
  | mk _ _ op _ _ _ _ _ h3 _ _ =>
    simp only [textOf_append, List.mem_append]
    refine .inr (.inr (.inl ?_))
    generalize textOf op = o at h3
    cases h3 <;> simp

/-- `NameChar`, as a function. -/
private def nameChar (c : Char) : Bool :=
  !isWhitespace c && c != ':' && c != '=' && c != '!' && c != '?' && c != '+'

/-- After the name and blanks there is the operator. -/
private theorem operator {line name value : List LChar} {ty : AssignType} (h : AssignText line name ty value) :
    ∃ c, (((textOf line).dropWhile nameChar).dropWhile blankChar).head? = some c ∧ c ∈ ['=', ':', '!', '?', '+'] := by
  cases h with
  | mk _ gap op gap' _ _ h1 h2 h3 _ _ =>
    simp only [textOf_append]
    have n1 : ∀ c ∈ textOf name, nameChar c = true := by
      intro c hc
      obtain ⟨y, hy, rfl⟩ := List.mem_map.mp hc
      have := h1 y hy
      unfold NameChar at this
      simp [nameChar, this]
    have n2 : ∀ c ∈ textOf gap, blankChar c = true ∧ nameChar c = false := by
      intro c hc
      obtain ⟨y, hy, rfl⟩ := List.mem_map.mp hc
      rcases h2 y hy with e | e <;> rw [e] <;> decide
    rw [List.dropWhile_append_of_pos n1]
    obtain ⟨c, o, e, ho⟩ : ∃ c o, textOf op = c :: o ∧ c ∈ ['=', ':', '!', '?', '+'] := by
      generalize textOf op = o at h3
      cases h3 <;> exact ⟨_, _, rfl, by decide⟩
    have ho' : nameChar c = false ∧ blankChar c = false := by
      clear e; revert c; decide
    refine ⟨c, ?_, ho⟩
    generalize textOf gap' ++ textOf value = z
    have e2 : (textOf gap ++ (textOf op ++ z)).dropWhile nameChar = textOf gap ++ (textOf op ++ z) := by
      cases hg : textOf gap with
      | nil => simp [e, ho'.1]
      | cons a g => simp [(n2 a (by rw [hg]; simp)).2]
    rw [e2, List.dropWhile_append_of_pos fun c hc => (n2 c hc).1, e]
    simp [ho'.2]

private theorem defineHead_name {env : Env} {l : Location} {x : Str} (hn : x ≠ []) (hx : ∀ c ∈ x, IdentChar c) :
    DefineHead env (locate l ("define ".toList ++ x)) x .recursive := by
  have e : '=' ∉ x := fun h => absurd (hx _ h) (by unfold IdentChar; decide)
  have hh : ∀ c, x.head? = some c → ¬ (c = ' ' ∨ c = '\t') := by
    intro c hc
    have : IdentChar c := hx c (List.mem_of_head? hc)
    rintro (rfl | rfl) <;> revert this <;> unfold IdentChar <;> decide
  have h0 : locate l ("define ".toList ++ x) = locate l "define".toList ++ (locate (l.after "define".toList) [' '] ++
      locate ((l.after "define".toList).after [' ']) x) := by
    rw [← locate_append, ← locate_append]
    rfl
  have h := DefineHead.name (env := env) (kw := locate l "define".toList) (gap := locate (l.after "define".toList) [' '])
    (name := locate ((l.after "define".toList).after [' ']) x) (by rw [textOf_locate]; decide)
    (by intro y hy; exact mem_locate (q := fun c => c = ' ' ∨ c = '\t') (by decide) y hy) (head_locate hh)
    (fun n ty v h => by
      have := equals h
      rw [← h0, textOf_locate, List.mem_append] at this
      rcases this with this | this
      · revert this; decide
      · exact e this)
    (fun n ty h => e (by simpa using equals h))
  have ht := trim_name (name := locate l x) ⟨by cases x <;> simp [locate] at hn ⊢, mem_locate hx⟩
  rw [textOf_locate] at ht
  rw [textOf_locate, ht] at h
  rw [h0]
  exact h

private theorem body_locate {ls : List Str} {rest : Str} (hls : ∀ s ∈ ls, '\n' ∉ s ∧ '$' ∉ s ∧
    ¬ "define".toList <+: s.dropWhile blankChar ∧ ¬ "endef".toList <+: s.dropWhile blankChar) : ∀ {l : Location}, ∃ l',
    DefineBody Begins 1 (locate l (ls.flatMap (· ++ ['\n']) ++ ("endef\n".toList ++ rest)))
      (Expr.text (locate l (ls.flatMap (· ++ ['\n'])))) (locate l' rest) := by
  induction ls with
  | nil => intro l; exact ⟨_, endef_locate⟩
  | cons s ls ih =>
    intro l
    obtain ⟨l', ih⟩ := ih (fun s' h => hls s' (List.mem_cons_of_mem _ h)) (l := l.after (s ++ ['\n']))
    obtain ⟨h1, h2, h3, h4⟩ := hls s (by simp)
    refine ⟨l', ?_⟩
    have key : ∀ w : Str, (∀ c ∈ w, blankChar c = false ∧ c ≠ '\n') → ¬ w <+: s.dropWhile blankChar →
        ¬ w <+: (s ++ ['\n']).dropWhile blankChar := by
      intro w hw hn hp
      have e : (s ++ ['\n']).dropWhile blankChar = s.dropWhile blankChar ++ ['\n'] := by
        clear hn hp h1 h2 h3 h4 hls ih
        induction s with
        | nil => rfl
        | cons c s ih =>
          rw [List.cons_append, List.dropWhile_cons, List.dropWhile_cons]
          split
          · exact ih
          · rfl
      rw [e] at hp
      rcases (List.prefix_concat_iff (l₁ := w)).mp hp with rfl | hp
      · exact (hw '\n' (by simp)).2 rfl
      · exact hn hp
    rw [List.flatMap_cons, List.append_assoc, locate_append]
    have e : Expr.text (locate l ((s ++ ['\n']) ++ ls.flatMap (· ++ ['\n']))) =
        Expr.text (locate l (s ++ ['\n'])) ++ Expr.text (locate (l.after (s ++ ['\n'])) (ls.flatMap (· ++ ['\n']))) := by
      rw [locate_append]
      simp [Expr.text]
    rw [e]
    refine .line (line_locate h1) ?_ ?_ (reads_text (free_locate ?_)) ih
    · rw [begins_locate]; exact key _ (by decide) h3
    · rw [begins_locate]; exact key _ (by decide) h4
    · simpa using h2

private theorem no_slashes {s : Str} (h : '\\' ∉ s) : trailingSlashes s = 0 := by
  unfold trailingSlashes
  rw [List.length_eq_zero_iff, List.takeWhile_eq_nil_iff]
  intro hne hc
  have : s.reverse.get ⟨0, hne⟩ ∈ s.reverse := List.getElem_mem _
  rw [eq_of_beq hc, List.mem_reverse] at this
  exact h this

/-- C50 for plain text: a makefile that defines the variable `x` by any number of lines without references.  Afterwards
the variable has the text of these lines, each with its line feed, and all other variables and the rules are the same. -/
theorem C50_text_partial (fs : Fs) {x name : Str} {ls : List Str} {st : St} (hx : x ≠ [] ∧ ∀ c ∈ x, IdentChar c)
    (hls : ∀ s ∈ ls, AsciiS s ∧ '\n' ∉ s ∧ '$' ∉ s ∧ '#' ∉ s ∧
      ¬ "define".toList <+: s.dropWhile (fun c => c == ' ' || c == '\t') ∧
      ¬ "endef".toList <+: s.dropWhile (fun c => c == ' ' || c == '\t'))
    (hch : isAscii st.commandChar = true) (hw : st.WF) (hk : RulesKnown st.db st.names) :
    ∃ st' l, FileGives fs name ("define ".toList ++ x ++ "\n".toList ++ ls.flatMap (· ++ ['\n']) ++ "endef\n".toList) st st' ∧
      st'.vars = st.vars.set x .recursive (Expr.text (locate l (ls.flatMap (· ++ ['\n'])))) ∧ st'.ruleTable = st.ruleTable := by
  have hxa : AsciiS x ∧ '#' ∉ x ∧ '\n' ∉ x ∧ '\\' ∉ x := by
    have hno : ∀ d, ¬ IdentChar d → d ∉ x := fun d hd h => hd (hx.2 d h)
    refine ⟨fun c hc => ?_, hno _ (by unfold IdentChar; decide), hno _ (by unfold IdentChar; decide), hno _ (by unfold IdentChar; decide)⟩
    exact decide_eq_true (hx.2 c hc).lt
  have hl : Logical _ _ _ := logical_locate (l := .source 1 1 (st.names.internFile name).1) (line := "define ".toList ++ x)
    (rest := ls.flatMap (· ++ ['\n']) ++ ("endef\n".toList ++ [])) (by simp [hxa.2.2.1]) (by simp)
    (by rw [no_slashes (by simp [hxa.2.2.2])])
  obtain ⟨l', hb⟩ := body_locate (rest := []) (fun s h => ⟨(hls s h).2.1, (hls s h).2.2.1, (hls s h).2.2.2.2.1, (hls s h).2.2.2.2.2⟩)
    (l := ((Location.source 1 1 (st.names.internFile name).1).after ("define ".toList ++ x)).after ['\n'])
  have hm : Makes st.commandChar NoSwitch ⟨st.vars, st.ruleTable, [], none⟩ _ _ :=
    .define (m := ⟨st.vars, st.ruleTable, [], none⟩) (by intro b hb; cases hb) (.inl rfl) hl (defineHead_name hx.1 hx.2) hb .recursive .nil
  have hasc : AsciiS (("define ".toList ++ x) ++ '\n' :: (ls.flatMap (· ++ ['\n']) ++ ("endef\n".toList ++ []))) := by
    intro c hc
    simp only [List.mem_append, List.mem_cons, List.mem_flatMap] at hc
    rcases hc with (hc | hc) | rfl | ⟨s, hs, hc | rfl | hc⟩ | hc | hc
    · revert c; decide
    · exact hxa.1 c hc
    · rfl
    · exact (hls s hs).1 c hc
    · rfl
    · cases hc
    · revert c; decide
    · cases hc
  have hcom : '#' ∉ (("define ".toList ++ x) ++ '\n' :: (ls.flatMap (· ++ ['\n']) ++ ("endef\n".toList ++ []))) := by
    intro hc
    simp only [List.mem_append, List.mem_cons, List.mem_flatMap] at hc
    rcases hc with (hc | hc) | hc | ⟨s, hs, hc | hc⟩ | hc | hc
    · revert hc; decide
    · exact hxa.2.1 hc
    · revert hc; decide
    · exact (hls s hs).2.2.2.1 hc
    · revert hc; decide
    · revert hc; decide
    · cases hc
  obtain ⟨p', st', h1, h2, _⟩ := file_makes fs (name := name) (text := ("define ".toList ++ x) ++ '\n' :: (ls.flatMap (· ++ ['\n']) ++ ("endef\n".toList ++ [])))
    hasc (.none (free_locate hcom)) hch hw hk rfl rfl hm
  refine ⟨st', _, ?_, h2.vars, h2.rules⟩
  have e : "define ".toList ++ x ++ "\n".toList ++ ls.flatMap (· ++ ['\n']) ++ "endef\n".toList =
    ("define ".toList ++ x) ++ '\n' :: (ls.flatMap (· ++ ['\n']) ++ ("endef\n".toList ++ [])) := by simp
  rw [e]
  exact h1

private theorem init_known : RulesKnown St.init.db St.init.names :=
  ⟨⟨List.nodup_nil, List.nodup_nil⟩, fun f r h => by cases h⟩

/-- A body with a nested definition: it belongs to the value. -/
example (fs : Fs) : ∃ st' l, FileGives fs "Makefile".toList "define x\n define y\n 1\n endef\n2\nendef\n".toList St.init st' ∧
    st'.vars ['x'] = some (.recursive, Expr.text (locate l " define y\n 1\n endef\n2\n".toList)) := by
  have hl : Logical _ _ _ := logical_locate (l := .source 1 1 (St.init.names.internFile "Makefile".toList).1)
    (line := "define x".toList) (rest := " define y\n 1\n endef\n2\nendef\n".toList) (by decide) (by simp) (by decide)
  have b4 := endef_locate (starts := Begins) (l := .source 6 1 (St.init.names.internFile "Makefile".toList).1) (rest := [])
  have b3 := DefineBody.line (line := locate (.source 5 1 (St.init.names.internFile "Makefile".toList).1) "2\n".toList)
    (line_locate (s := ['2']) (by decide)) (by rw [begins_locate]; decide) (by rw [begins_locate]; decide)
    (reads_text (free_locate (by decide))) b4
  have b2 := DefineBody.innerEnd (line := locate (.source 4 1 (St.init.names.internFile "Makefile".toList).1) " endef\n".toList)
    (line_locate (s := " endef".toList) (by decide)) ⟨['\n'], rfl, by decide⟩ (reads_text (free_locate (by decide))) b3
  have b1 := DefineBody.line (line := locate (.source 3 1 (St.init.names.internFile "Makefile".toList).1) " 1\n".toList)
    (line_locate (s := " 1".toList) (by decide)) (by rw [begins_locate]; decide) (by rw [begins_locate]; decide)
    (reads_text (free_locate (by decide))) b2
  have b0 := DefineBody.inner (line := locate (.source 2 1 (St.init.names.internFile "Makefile".toList).1) " define y\n".toList)
    (line_locate (s := " define y".toList) (by decide)) (by rw [begins_locate]; decide)
    (reads_text (free_locate (by decide))) b1
  have hm : Makes '\t' NoSwitch ⟨St.init.vars, St.init.ruleTable, [], none⟩ _ _ :=
    .define (m := ⟨St.init.vars, St.init.ruleTable, [], none⟩) (by intro b hb; cases hb) (.inl rfl) hl
      (defineHead_name (x := ['x']) (by simp) (by unfold IdentChar; decide)) b0 .recursive .nil
  obtain ⟨p', st', h1, h2, _⟩ := file_makes fs (name := "Makefile".toList) (st := St.init)
    (text := "define x\n define y\n 1\n endef\n2\nendef\n".toList) (by unfold AsciiS; decide) (.none (free_locate (by decide))) rfl St.init_wf
    init_known rfl rfl hm
  exact ⟨st', .source 2 1 ⟨0⟩, h1, by rw [h2.vars]; rfl⟩

/-- `+=`: the lines are added to the old value, after a space. -/
example (fs : Fs) : ∃ st' l l', FileGives fs "Makefile".toList "x=0\ndefine x +=\n1\nendef\n".toList St.init st' ∧
    st'.vars ['x'] = some (.recursive, Expr.text (locate l ['0'] ++ (' ', .synthetic) :: locate l' "1\n".toList)) := by
  have hl : Logical _ _ _ := logical_locate (l := .source 1 1 (St.init.names.internFile "Makefile".toList).1)
    (line := "x=0".toList) (rest := "define x +=\n1\nendef\n".toList) (by decide) (by simp) (by decide)
  have r1 : LineMeans '\t' NoSwitch ⟨St.init.vars, St.init.ruleTable, [], none⟩ _ _ _ :=
    .assign (m := ⟨St.init.vars, St.init.ruleTable, [], none⟩) (by intro b hb; cases hb) (.inl rfl) hl
      (assignText_locate (name := ['x']) (gap := []) (op := ['=']) (gap' := []) (value := ['0'])
        (by unfold NameChar; decide) (by simp) .recursive (by simp) (by simp))
      (not_condLike_locate (by simp) (by unfold condWords; decide)) (reads_text (free_locate (by decide)))
      (reads_text (free_locate (by decide))) (by simp) (.recursive (denotes_locate (by decide)) .nil)
  have hd : Logical _ _ _ := logical_locate (l := .source 2 1 (St.init.names.internFile "Makefile".toList).1)
    (line := "define x +=".toList) (rest := "1\nendef\n".toList) (by decide) (by simp) (by decide)
  have head : ∀ env, DefineHead env (locate (.source 2 1 (St.init.names.internFile "Makefile".toList).1) "define x +=".toList)
      ['x'] .append := by
    intro env
    have ha : AssignText (locate (.source 2 8 (St.init.names.internFile "Makefile".toList).1) "x +=".toList) _ _ _ :=
      assignText_locate (name := ['x']) (gap := [' ']) (op := "+=".toList) (gap' := []) (value := [])
        (by unfold NameChar; decide) (by simp) .append (by simp) (by simp)
    refine .op (kw := locate (.source 2 1 _) "define".toList) (gap := locate (.source 2 7 _) [' '])
      (rest := locate (.source 2 8 _) "x +=".toList) (by rw [textOf_locate]; decide)
      (fun y hy => mem_locate (q := fun c => c = ' ' ∨ c = '\t') (by decide) y hy)
      (head_locate (q := fun c => ¬ (c = ' ' ∨ c = '\t')) (by simp)) ?_ ha
      (reads_text (free_locate (by decide))) (denotes_locate (by decide))
    intro n ty v h
    obtain ⟨c, h1, h2⟩ := operator h
    simp only [textOf_append, textOf_locate] at h1
    have : c = 'x' := by
      have e : ((("define".toList ++ ([' '] ++ "x +=".toList)).dropWhile nameChar).dropWhile blankChar).head? = some 'x' := by decide
      rw [e] at h1
      exact (Option.some.inj h1).symm
    subst this
    revert h2
    decide
  have hb : DefineBody Begins 1 _ _ _ := .line (line := locate (.source 3 1 (St.init.names.internFile "Makefile".toList).1) "1\n".toList)
    (line_locate (s := ['1']) (by decide)) (by rw [begins_locate]; decide) (by rw [begins_locate]; decide)
    (reads_text (free_locate (by decide)))
    (endef_locate (starts := Begins) (l := .source 4 1 (St.init.names.internFile "Makefile".toList).1) (rest := []))
  obtain ⟨p', st', h1, h2, _⟩ := file_makes fs (name := "Makefile".toList) (st := St.init)
    (text := "x=0\ndefine x +=\n1\nendef\n".toList) (by unfold AsciiS; decide) (.none (free_locate (by decide))) rfl St.init_wf
    init_known rfl rfl (.cons r1 (.define (by intro b hb; cases hb) (.inl rfl) hd (head _) hb (.append (f := .recursive) rfl (by simp)) .nil))
  exact ⟨st', .source 1 3 ⟨0⟩, .source 3 1 ⟨0⟩, h1, by rw [h2.vars]; rfl⟩

/-! ### Refutation -/

private def noFs : Fs := fun _ => .missing

/-- Read line after line, and tell whether a definition is still open at the end. -/
private def openAtEnd (n : Nat) : (k : Nat) → Span → PState → St → Res Bool
  | 0, _, _, _ => .fuel
  | k + 1, i, p, st =>
    if i.length = 0 then .ok p.currentDefine.isSome
    else do
      let (x, p, st) ← parseLine noFs (recF noFs n) p st i
      match x with
      | .done j _ => openAtEnd n k j p st
      | .err _ => .panic .unimplemented

private theorem openAtEnd_steps {n : Nat} {i j : Span} {p p' : PState} {st st' : St}
    (h : LineSteps noFs (recF noFs n) i p st j p' st') (hj : j.length = 0) :
    ∀ {k : Nat} {b : Bool}, openAtEnd n k i p st = .ok b → p'.currentDefine.isSome = b := by
  induction h with
  | nil =>
    intro k b hb
    cases k with
    | zero => cases hb
    | succ k =>
      rw [openAtEnd, if_pos hj] at hb
      cases hb
      rfl
  | cons h1 h2 _ ih =>
    intro k b hb
    cases k with
    | zero => cases hb
    | succ k =>
      rw [openAtEnd, if_neg h1, h2] at hb
      exact ih hj hb

private theorem openAtEnd_mono {m n : Nat} (h : m ≤ n) {k : Nat} : ∀ {i : Span} {p : PState} {st : St} {b : Bool},
    openAtEnd m k i p st = .ok b → openAtEnd n k i p st = .ok b := by
  induction k with
  | zero => intro i p st b hb; cases hb
  | succ k ih =>
    intro i p st b hb
    rw [openAtEnd] at hb ⊢
    split at hb
    · rename_i h1
      rw [if_pos h1]
      exact hb
    · rename_i h1
      obtain ⟨⟨x, p1, st1⟩, h2, h3⟩ := Res.bind_eq_ok.mp hb
      rw [if_neg h1, (parseLine_le (recF_le noFs h) noFs p st i).ok h2]
      cases x with
      | done j u => exact ih h3
      | err e => cases h3

/-- A line that begins with `defined` is taken for a nested definition, which never ends. -/
theorem C50_refuted : ¬ C50_full := by
  intro h
  have hr : Ready _ _ _ _ _ PState.new St.init := ready_locate (l := .synthetic) (line := "define x".toList)
    (rest := "defined\nendef\n".toList) (by unfold AsciiS; decide) (by decide) (by decide) (by simp) (by decide) rfl St.init_wf
  have hn : ∀ w : Str, w ∈ ["define".toList, "endef".toList] →
      ¬ FirstWord w (locate .synthetic "defined\n".toList) := by
    rintro w hw ⟨s, h1, h2⟩
    rw [dropWhile_locate (by simp), textOf_locate] at h1
    simp only [List.mem_cons, List.not_mem_nil, or_false] at hw
    rcases hw with rfl | rfl
    · have e : s = "d\n".toList := List.append_cancel_left (as := "define".toList) h1.symm
      subst e
      exact absurd (h2 'd' rfl) (by decide)
    · exact absurd (List.cons.inj h1).1 (by decide)
  have hb : DefineBody FirstWord 1 (locate .synthetic "defined\nendef\n".toList) _ _ :=
    .line (line := locate .synthetic "defined\n".toList) (line_locate (s := "defined".toList) (by decide)) (hn _ (by simp))
      (hn _ (by simp)) (reads_text (free_locate (by decide))) (endef_locate (l := .synthetic) (rest := []))
  obtain ⟨st', pv, ⟨N, j, hj, h1⟩, _⟩ := h noFs _ _ _ _ _ _ _ _ _ _ _ hr
    (defineHead_name (x := ['x']) (by simp) (by unfold IdentChar; decide)) hb
  have e1 : openAtEnd 10 4 (textBlock .synthetic ("define x".toList ++ '\n' :: "defined\nendef\n".toList)).span PState.new
      St.init = .ok true := by decide +kernel
  have e2 := openAtEnd_steps (h1 (max N 10) (by omega)) (by rw [hj.length]; rfl) (openAtEnd_mono (by omega) e1)
  cases e2

end Hastur
