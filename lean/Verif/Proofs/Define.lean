import Verif.Spec.Define
import Verif.Proofs.Include
import Verif.Proofs.Progress
/-
Lemmas: `define` blocks.
-/
namespace Hastur

open Res Span

variable {P : Block} {t : List LChar} {i : Span}

/-! ### A line of a definition -/

theorem WholeLine.ne_nil {line rest : List LChar} (h : WholeLine line rest) : line ≠ [] := by
  cases h with
  | feed _ => simp
  | last h _ => exact h

theorem grabDefineLine_whole (hP : P.content.length ≤ 1) {line rest : List LChar} (h : i.At P (line ++ rest))
    (hl : WholeLine line rest) (hf : Free '#' (line ++ rest)) :
    ∃ j l, grabDefineLine i = .ok (.done j l) ∧ j.At P rest ∧ l.At P line := by
  cases hl with
  | @feed body _ loc hb =>
    rw [List.append_assoc] at h hf
    obtain ⟨r, n, h1, h2, h3, h4⟩ := (grabDefineLine_at h).2.1 body loc rest hf rfl hb
    have hs : r.start = i.start := by
      obtain ⟨_, ⟨k, s1, s2, s3⟩, _⟩ := h3
      have : i.contents.length ≤ 1 := by
        unfold Span.contents; rw [h.parent, List.length_drop]; omega
      omega
    rw [if_pos hs] at h4
    subst h4
    refine ⟨r, _, h1, h2, ?_⟩
    have := h.sliceTo (n := body.length + 1) (by simp)
    have e : (body ++ ([('\n', loc)] ++ rest)).take (body.length + 1) = body ++ [('\n', loc)] := by
      rw [← List.append_assoc, List.take_left' (by simp)]
    rwa [e] at this
  | last hne hb =>
    rw [List.append_nil] at h hf
    obtain ⟨r, h1, h2⟩ := (grabDefineLine_at h).2.2 hf hb
    exact ⟨r, i, h1, h2, h⟩

/-- What kind of line it is. -/
inductive LineKind (line : List LChar) : DefineLineAction → Prop
  | append : ¬ Begins "define".toList line → ¬ Begins "endef".toList line → LineKind line .append
  | inner : Begins "define".toList line → LineKind line .increaseNesting
  | end_ : Alone "endef".toList line → LineKind line .decreaseNesting

theorem Alone.begins {w : Str} {line : List LChar} (h : Alone w line) : Begins w line := by
  obtain ⟨s, h, _⟩ := h
  exact ⟨s, h.symm⟩

theorem parseDefineLine_at (hP : P.content.length ≤ 1) (hm : Block.Mono P) {line rest : List LChar} {es : List Expr}
    {k : DefineLineAction} (h : i.At P (line ++ rest)) (hl : WholeLine line rest) (hf : Free '#' (line ++ rest))
    (hr : Reads line (.ok es)) (hk : LineKind line k) :
    ∃ j a loc, parseDefineLine i = .ok (.done j ⟨a, k, loc⟩) ∧ j.At P rest ∧ a.flat = es ∧ a.WF := by
  obtain ⟨j, l, e1, e2, e3⟩ := grabDefineLine_whole hP h hl hf
  obtain ⟨x, line', rfl⟩ : ∃ x line', line = x :: line' := by
    cases line with
    | nil => exact absurd rfl hl.ne_nil
    | cons x t => exact ⟨x, t, rfl⟩
  have hloc := Span.location_mono e3.good (by rw [e3.parent]; exact hm)
  rw [e3.ltext] at hloc
  obtain ⟨r, a, f1, _, f2, f3⟩ := parseAst_at hm e3 hr
  obtain ⟨r1, q1, g1, g2, _⟩ := whitespace_at e3
  refine ⟨j, a, x.2, ?_, e2, f2, f3⟩
  have key : ∃ r2, (orElse ((Nom.tag "define".toList r1).mapP fun _ => DefineLineAction.increaseNesting) <|
     orElse ((Nom.tag "endef".toList r1).mapP fun _ => DefineLineAction.decreaseNesting) <|
     (Nom.rest r1).mapP fun _ => DefineLineAction.append) = .ok (.done r2 k) ∧
     ∃ t2, r2.At P t2 ∧ (k = .decreaseNesting → ∀ x ∈ t2, isWhitespace x.1 = true) := by
    have ad : AsciiS "define".toList := by unfold AsciiS; decide
    have ae : AsciiS "endef".toList := by unfold AsciiS; decide
    cases hk with
    | append h1 h2 =>
      obtain ⟨r2, k1, k2⟩ := Nom.rest_at g2
      refine ⟨r2, ?_, _, k2, by simp⟩
      rw [(Nom.tag_at g2 ad).2 h1, (Nom.tag_at g2 ae).2 h2, k1]
      rfl
    | inner h1 =>
      obtain ⟨r2, q2, k1, k2, _⟩ := (Nom.tag_at g2 ad).1 h1
      refine ⟨r2, ?_, _, k2, by simp⟩
      rw [k1]
      rfl
    | end_ h1 =>
      obtain ⟨r2, q2, k1, k2, _⟩ := (Nom.tag_at g2 ae).1 h1.begins
      have hn : ¬ "define".toList <+: textOf ((x :: line').dropWhile lblank) := by
        obtain ⟨s, hs, _⟩ := h1
        rw [hs]
        rintro ⟨u, hu⟩
        have := (List.cons.inj hu).1
        revert this
        decide
      refine ⟨r2, ?_, _, k2, fun _ y hy => ?_⟩
      · rw [(Nom.tag_at g2 ad).2 hn, k1]
        rfl
      · obtain ⟨s, hs, hw⟩ := h1
        refine hw y.1 ?_
        have e : textOf (((x :: line').dropWhile lblank).drop "endef".toList.length) = s := by
          rw [textOf_drop, hs, List.drop_left]
        rw [← e]
        exact List.mem_map_of_mem hy
  obtain ⟨r2, k1, t2, k2, k3⟩ := key
  obtain ⟨r3, q3, m1, m2, _⟩ := Nom.takeWhile_at k2 isWhitespace
  unfold parseDefineLine
  simp only [e1, done_andThen, hloc, List.head?_cons, Option.map_some, runwrap, ok_bind, f1, g1, k1, m1]
  have hz : (k = .decreaseNesting && r3.length ≠ 0) = false := by
    cases k with
    | decreaseNesting =>
      have : t2.dropWhile (fun x => isWhitespace x.1) = [] := List.dropWhile_eq_nil_iff.mpr (k3 rfl)
      rw [m2.length, this]
      rfl
    | _ => rfl
  simp only [hz]
  rfl

/-! ### Setting and extending a variable -/

theorem St.WF.set_var {st : St} (hst : st.WF) {v : VariableName} {s : Str} (hv : st.names.variableName s = some v)
    {pv : VarParams} {db : Database} (hp : pv.value.WF)
    (hget : ∀ w, db.getVariable w = if w = v then some pv else st.db.getVariable w) (hr : db.rules = st.db.rules)
    (ht : db.targetVariables = st.db.targetVariables) :
    ({ st with db := db } : St).WF ∧ Assigned st { st with db := db } s pv := by
  have hl := hst.lookup_set hv hget
  refine ⟨⟨hst.nodup, fun w q hw => ?_, fun w q hw => ?_⟩, ⟨?_, ?_, hr, ht, ⟨[], rfl⟩, rfl⟩⟩
  · rw [hget] at hw
    by_cases e : w = v
    · subst e
      exact ⟨s, (variableName_iff' _ hst.nodup _ _).mp hv⟩
    · rw [if_neg e] at hw
      exact hst.known w q hw
  · rw [hget] at hw
    by_cases e : w = v
    · rw [if_pos e] at hw
      cases hw
      exact hp
    · rw [if_neg e] at hw
      exact hst.values w q hw
  · rw [hl, if_pos rfl]
  · intro x hx
    rw [hl, if_neg hx]

theorem Assigned.trans {st st1 st2 : St} {s : Str} {p q : VarParams} (h1 : Assigned st st1 s p) (h2 : Assigned st1 st2 s q) :
    Assigned st st2 s q := by
  obtain ⟨a1, a2, a3, a4, ⟨cs, a5⟩, a6⟩ := h1
  obtain ⟨b1, b2, b3, b4, ⟨ds, b5⟩, b6⟩ := h2
  refine ⟨b1, fun x hx => by rw [b2 x hx, a2 x hx], by rw [b3, a3], by rw [b4, a4], ⟨cs ++ ds, ?_⟩, by rw [b6, a6]⟩
  rw [b5, a5, NameCache.after_append]

/-- A line is added to the variable. -/
theorem append_line {st : St} (hst : st.WF) {v : VariableName} {s : Str} (hv : st.names.variableName s = some v)
    {old : VarParams} (ho : st.lookup s = some old) {a : Ast} (ha : a.WF) (loc : Location) :
    ∃ pv, ({ st with db := st.db.appendToVariable v loc ⟨a, .recursive, .file⟩ false } : St).WF ∧
      Assigned st { st with db := st.db.appendToVariable v loc ⟨a, .recursive, .file⟩ false } s pv ∧
      pv = { old with value := pv.value } ∧ pv.value.flat = old.value.flat ++ a.flat := by
  have hold : st.db.getVariable v = some old := by
    have : st.lookup s = st.db.getVariable v := by rw [St.lookup, hv]; rfl
    rw [← this, ho]
  have hold' : st.db.variables.get v = some old := hold
  refine ⟨{ old with value := Ast.collapsingConcat loc [old.value, a] }, ?_⟩
  have hw : (Ast.collapsingConcat loc [old.value, a]).WF := wf_collapsing ⟨hst.values _ _ hold, ha, trivial⟩
  obtain ⟨w1, w2⟩ := hst.set_var hv (pv := { old with value := Ast.collapsingConcat loc [old.value, a] })
    (db := st.db.appendToVariable v loc ⟨a, .recursive, .file⟩ false) hw
    (fun w => by simp only [Database.appendToVariable, hold', Database.getVariable, AMap.get_insert]; rfl)
    (by simp only [Database.appendToVariable, hold']) (by simp only [Database.appendToVariable, hold'])
  refine ⟨w1, w2, rfl, ?_⟩
  show (Ast.collapsingConcat loc [old.value, a]).flat = _
  rw [flat_collapsing]
  simp [Ast.flatList]

/-! ### Several lines -/

/-- Reading some lines. -/
inductive Many (fs : Fs) : Span → PState → St → Span → PState → St → Prop
  | nil {i : Span} {p : PState} {st : St} : Many fs i p st i p st
  | step {i j k : Span} {p p1 p' : PState} {st st1 st' : St} (N : Nat) : j.length < i.length →
      (∀ n, N ≤ n → parseLine fs (recF fs n) p st i = .ok (.done j (), p1, st1)) → Many fs j p1 st1 k p' st' →
      Many fs i p st k p' st'

theorem Many.proc {fs : Fs} {i j : Span} {p p1 p' : PState} {st st1 st' : St} (h : Many fs i p st j p1 st1)
    (hp : Proc fs j p1 st1 p' st') : Proc fs i p st p' st' := by
  induction h with
  | nil => exact hp
  | step N h1 h2 _ ih => exact .step N h1 h2 (ih hp)

theorem Many.steps {fs : Fs} {i j : Span} {p p1 : PState} {st st1 : St} (h : Many fs i p st j p1 st1) :
    ∃ N, ∀ n, N ≤ n → LineSteps fs (recF fs n) i p st j p1 st1 := by
  induction h with
  | nil => exact ⟨0, fun n _ => .nil⟩
  | step N h1 h2 _ ih =>
    obtain ⟨M, hM⟩ := ih
    exact ⟨max N M, fun n hn => .cons (by omega) (h2 n (by omega)) (hM n (by omega))⟩

/-! ### The lines of a definition -/

theorem parseLine_define (fs : Fs) (hP : P.content.length ≤ 1) (hm : Block.Mono P) {line rest : List LChar} {es : List Expr}
    {k : DefineLineAction} {p : PState} {st : St} {d : DefineState} (h : i.At P (line ++ rest)) (hl : WholeLine line rest)
    (hf : Free '#' (line ++ rest)) (hr : Reads line (.ok es)) (hk : LineKind line k) (hc : p.currentRule = none)
    (hd : p.currentDefine = some d) :
    ∃ j a loc, j.At P rest ∧ a.flat = es ∧ a.WF ∧ ∀ r, parseLine fs r p st i =
      (handleDefineLine p st ⟨a, k, loc⟩).bind fun (p, st) => .ok (.done j (), p, st) := by
  obtain ⟨j, a, loc, e1, e2, e3, e4⟩ := parseDefineLine_at hP hm h hl hf hr hk
  refine ⟨j, a, loc, e2, e3, e4, fun r => ?_⟩
  unfold parseLine
  simp only [comment_none h (free_dropWhile hf), ok_bind, hc, hd, e1]
  rfl

theorem WholeLine.lt {line rest : List LChar} (h : WholeLine line rest) : rest.length < (line ++ rest).length := by
  have := List.length_pos_of_ne_nil h.ne_nil
  simp
  omega

/-- What collecting the text `t` of a definition `d` levels deep comes to: the content `bes` is added to the variable, the
text `rest` is left, and `fin` tells whether the definition is still open. -/
def Collects (fs : Fs) (P : Block) (d : Nat) (t : List LChar) (bes : List Expr) (rest : List LChar)
    (fin : VariableName → Option DefineState) : Prop :=
  ∀ (i : Span) (p : PState) (st : St) (v : VariableName) (s : Str) (old : VarParams),
    i.At P t → Free '#' t → p.currentRule = none → p.currentDefine = some ⟨v, d⟩ → st.WF →
    st.names.variableName s = some v → st.lookup s = some old →
    ∃ j st' pv, Many fs i p st j { p with currentDefine := fin v } st' ∧ j.At P rest ∧ rest <:+ t ∧ st'.WF ∧
      (st' = st ∧ pv = old ∨ Assigned st st' s pv) ∧ pv = { old with value := pv.value } ∧
      pv.value.flat = old.value.flat ++ bes

/-- One line more. -/
theorem Collects.step (fs : Fs) (hP : P.content.length ≤ 1) (hm : Block.Mono P) {line t rest : List LChar}
    {es es' : List Expr} {k : DefineLineAction} {d d' : Nat} {fin : VariableName → Option DefineState} (hl : WholeLine line t)
    (hk : LineKind line k) (hr : Reads line (.ok es))
    (hh : ∀ {p : PState} {v : VariableName}, p.currentDefine = some ⟨v, d⟩ → ∀ a loc st, handleDefineLine p st ⟨a, k, loc⟩ =
      .ok ({ p with currentDefine := some ⟨v, d'⟩ },
        { st with db := st.db.appendToVariable v loc ⟨a, .recursive, .file⟩ false }))
    (ih : Collects fs P d' t es' rest fin) : Collects fs P d (line ++ t) (es ++ es') rest fin := by
  intro i p st v s old h hf hc hd hw hv ho
  obtain ⟨j, a, loc, e1, rfl, e3, e4⟩ := parseLine_define fs hP hm h hl hf hr hk hc hd (st := st)
  obtain ⟨pv, a1, a2, a3, a4⟩ := append_line hw hv ho e3 loc
  obtain ⟨j', st', pv', b1, b2, b3, b4, b5, b6, b7⟩ := ih _ { p with currentDefine := some ⟨v, d'⟩ }
    { st with db := st.db.appendToVariable v loc ⟨a, .recursive, .file⟩ false } _ _ _ e1 (Free.append.mp hf).2 hc rfl
    a1 hv a2.now
  refine ⟨j', st', pv', .step 0 (by rw [h.length, e1.length]; exact hl.lt) (fun n _ => ?_) b1, b2,
    b3.trans (List.suffix_append _ _), b4, .inr ?_, ?_, ?_⟩
  · rw [e4, hh hd]
    rfl
  · rcases b5 with ⟨rfl, rfl⟩ | b5
    · exact a2
    · exact a2.trans b5
  · rw [b6, a3]
  · rw [b7, a4, List.append_assoc]

/-- Collecting the lines of a definition. -/
theorem many_body (fs : Fs) (hP : P.content.length ≤ 1) (hm : Block.Mono P) {d : Nat} {bes : List Expr} {rest : List LChar}
    (hb : DefineBody Begins d t bes rest) : Collects fs P d t bes rest fun _ => none := by
  induction hb with
  | @line d line t rest es es' hl h1 h2 hr _ ih =>
    exact Collects.step fs hP hm hl (.append h1 h2) hr (fun hd a loc st => by simp only [handleDefineLine, hd]; rfl) ih
  | @inner d line t rest es es' hl h1 hr _ ih =>
    exact Collects.step fs hP hm hl (.inner h1) hr (d' := d + 1) (fun hd a loc st => by simp only [handleDefineLine, hd]; rfl) ih
  | @innerEnd d line t rest es es' hl h1 hr _ ih =>
    exact Collects.step fs hP hm hl (.end_ h1) hr (d' := d + 1) (fun hd a loc st => by simp only [handleDefineLine, hd]; rfl) ih
  | @done line rest hl h1 =>
    intro i p st v s old h hf hc hd hw hv ho
    have hr : Reads line (.ok (Expr.text line)) := by
      refine reads_text fun x hx e => ?_
      obtain ⟨u, hu, hw⟩ := h1
      rw [← List.takeWhile_append_dropWhile (p := lblank) (l := line)] at hx
      rcases List.mem_append.mp hx with hx | hx
      · have := takeWhile_blanks line x hx
        rw [e] at this
        revert this; decide
      · have := List.mem_map_of_mem (f := Prod.fst) hx
        rw [show List.map Prod.fst (line.dropWhile lblank) = textOf (line.dropWhile lblank) from rfl, hu, e] at this
        rcases List.mem_append.mp this with h | h
        · revert h; decide
        · have := hw _ h
          revert this; decide
    obtain ⟨j, a, loc, e1, _, _, e4⟩ := parseLine_define fs hP hm h hl hf hr (.end_ h1) hc hd (st := st)
    refine ⟨j, st, old, .step 0 (by rw [h.length, e1.length]; exact hl.lt) (fun n _ => ?_) .nil, e1, List.suffix_append _ _,
      hw, .inl ⟨rfl, rfl⟩, rfl, by simp⟩
    rw [e4]
    simp only [handleDefineLine, hd]
    rfl

/-- Collecting the lines of a definition that is not ended. -/
theorem many_openBody (fs : Fs) (hP : P.content.length ≤ 1) (hm : Block.Mono P) {d : Nat} {bes : List Expr}
    (hb : OpenBody Begins d t bes) : ∃ d', Collects fs P d t bes [] fun v => some ⟨v, d'⟩ := by
  induction hb with
  | @nil d =>
    refine ⟨d, ?_⟩
    intro i p st v s old h hf hc hd hw hv ho
    refine ⟨i, st, old, ?_, h, List.suffix_refl _, hw, .inl ⟨rfl, rfl⟩, rfl, by simp⟩
    show Many fs i p st i { p with currentDefine := some ⟨v, d⟩ } st
    rw [← hd]
    exact .nil
  | @line d line t es es' hl h1 h2 hr _ ih =>
    obtain ⟨d', ih⟩ := ih
    exact ⟨d', Collects.step fs hP hm hl (.append h1 h2) hr (fun hd a loc st => by simp only [handleDefineLine, hd]; rfl) ih⟩
  | @inner d line t es es' hl h1 hr _ ih =>
    obtain ⟨d', ih⟩ := ih
    exact ⟨d', Collects.step fs hP hm hl (.inner h1) hr (d' := d + 1) (fun hd a loc st => by simp only [handleDefineLine, hd]; rfl) ih⟩
  | @innerEnd d line t es es' hl h1 hr _ ih =>
    obtain ⟨d', ih⟩ := ih
    exact ⟨d', Collects.step fs hP hm hl (.end_ h1) hr (d' := d + 1) (fun hd a loc st => by simp only [handleDefineLine, hd]; rfl) ih⟩

/-! ### The line that opens a definition -/

theorem define_not_cond : ∀ w ∈ condWords, ¬ w <+: "define".toList ∧ ¬ "define".toList <+: w := by decide

theorem not_cond_keyword {kw rest : List LChar} {k : Str} (hk : (textOf kw).map lower = k)
    (h : ∀ w ∈ condWords, ¬ w <+: k ∧ ¬ k <+: w) : ¬ CondLike (kw ++ rest) := by
  have key : ∀ w ∈ condWords, ¬ w <+: (textOf (kw ++ rest)).map lower := by
    intro w hw
    rw [textOf_append, List.map_append, hk]
    exact not_prefix_append (h w hw).1 (h w hw).2
  intro hc
  cases hc with
  | word hw hp =>
    refine key _ ?_ hp
    simp only [condWords, List.mem_cons, List.not_mem_nil, or_false] at hw ⊢
    rcases hw with rfl | rfl | rfl | rfl <;> simp
  | @eq a b e hw _ =>
    refine key ((textOf a).map lower) ?_ (by rw [e, textOf_append, List.map_append]; exact List.prefix_append _ _)
    generalize (textOf a).map lower = w at hw ⊢
    simp only [condWords, List.mem_cons, List.not_mem_nil, or_false] at hw ⊢
    rcases hw with rfl | rfl <;> simp

/-- The parts of the line. -/
theorem DefineHead.split {env : Env} {line : List LChar} {s : Str} {ty : AssignType} (h : DefineHead env line s ty) :
    ∃ kw gap rest, line = kw ++ (gap ++ rest) ∧ (textOf kw).map lower = "define".toList ∧ Blanks gap ∧
      (∀ x, rest.head? = some x → ¬ (x.1 = ' ' ∨ x.1 = '\t')) ∧ (∀ n ty v, ¬ AssignText line n ty v) ∧
      ((∃ name nes, AssignText rest name ty [] ∧ Reads name (.ok nes) ∧ Denotes env nes s) ∨
       (ty = .recursive ∧ s = trim (textOf rest) ∧ ∀ n ty, ¬ AssignText rest n ty [])) := by
  cases h with
  | op h1 h2 h3 h4 h5 h6 h7 => exact ⟨_, _, _, rfl, h1, h2, h3, h4, .inl ⟨_, _, h5, h6, h7⟩⟩
  | name h1 h2 h3 h4 h5 => exact ⟨_, _, _, rfl, h1, h2, h3, h4, .inr ⟨rfl, rfl, h5⟩⟩

theorem DefineHead.dropBlanks {env : Env} {line : List LChar} {s : Str} {ty : AssignType} (h : DefineHead env line s ty) :
    line.dropWhile lblank = line ∧ line ≠ [] ∧ ¬ CondLike line := by
  obtain ⟨kw, gap, rest, rfl, hk, _⟩ := h.split
  have hc := not_cond_keyword (rest := gap ++ rest) hk define_not_cond
  cases kw with
  | nil => cases hk
  | cons x kw =>
    refine ⟨dropWhile_solid fun y hy => ?_, by simp, hc⟩
    cases hy
    have hl : lower x.1 = 'd' := (List.cons.inj hk).1
    simp only [Bool.eq_false_iff, ne_eq, lblank_iff]
    rintro (hb | hb) <;> rw [hb] at hl <;> revert hl <;> decide

/-- What the line does. -/
def defineAction (ty : AssignType) : VarActionKind :=
  match ty with
  | .append => .append Ast.mkEmpty
  | ty => .define ⟨Ast.mkEmpty, ty.flavor, .file⟩

def defineMods : Modifiers := { Modifiers.none with define := true }

theorem parseDefineHead_at (fs : Fs) (hm : Block.Mono P) {rest : List LChar} {s : Str} {ty : AssignType} {st : St}
    (h : i.At P rest) (hst : st.WF)
    (hd : (∃ name nes, AssignText rest name ty [] ∧ Reads name (.ok nes) ∧ Denotes st.env nes s) ∨
       (ty = .recursive ∧ s = trim (textOf rest) ∧ ∀ n ty, ¬ AssignText rest n ty [])) :
    ∃ N post v us, (∀ n, N ≤ n → parseDefineHead (recF fs n) defineMods i st =
        .ok (.done post ⟨v, defineMods, defineAction ty⟩, st.interned us)) ∧
      (st.interned us).names.variableName s = some v := by
  rcases hd with ⟨name, nes, h1, h2, nt, ns, h3, rfl⟩ | ⟨rfl, rfl, h1⟩
  · obtain ⟨r, q, e1, e2, e3⟩ := parseAssignmentOperator_at h h1
    obtain ⟨r', q', f1, f2, _⟩ := whitespace_at e2
    obtain ⟨r'', a, g1, _, rfl, g3⟩ := parseAst_at hm e3 h2
    obtain ⟨N, hN⟩ := evalName_of fs hst g3 h3
    refine ⟨N, r', ((st.interned ns).names.internVar (trim (textOf nt))).1, ns ++ [trim (textOf nt)], fun n hn => ?_, ?_⟩
    · unfold parseDefineHead
      have hz : r'.length = 0 := by rw [f2.length]; rfl
      simp only [e1, done_andThen, f1, done_def, ok_bind, hz, if_true, g1, hN n hn]
      rw [St.interned_append]
      cases ty <;> rfl
    · rw [St.interned_append]
      exact ((hst.interned ns).intern (trim (textOf nt))).1
  · have whole : ∃ post, defineWholeName defineMods i st = .ok (.done post
        ⟨(st.names.internVar (trim (textOf rest))).1, defineMods, defineAction .recursive⟩,
        st.interned [trim (textOf rest)]) := by
      obtain ⟨post, k1, _⟩ := h.sliceFrom (Nat.le_refl rest.length)
      refine ⟨post, ?_⟩
      unfold defineWholeName
      simp only [h.intoString, ok_bind, h.length, k1]
      rfl
    obtain ⟨post, hwhole⟩ := whole
    refine ⟨0, post, _, [trim (textOf rest)], fun n _ => ?_, (hst.intern _).1⟩
    unfold parseDefineHead
    by_cases ha : ∃ n ty v, AssignText rest n ty v
    · obtain ⟨na, ty, va, ha⟩ := ha
      obtain ⟨r, q, e1, e2, e3⟩ := parseAssignmentOperator_at h ha
      obtain ⟨r', q', f1, f2, _⟩ := whitespace_at e2
      have hv : va.dropWhile lblank ≠ [] := by
        intro e
        have hh : ∀ x, va.head? = some x → ¬ (x.1 = ' ' ∨ x.1 = '\t') := by
          cases ha with
          | mk _ _ _ _ _ _ _ _ _ _ hh => exact hh
        cases va with
        | nil => exact h1 _ _ ha
        | cons x va =>
          rw [dropWhile_solid (fun y hy => by simpa using fun hb => hh y hy (lblank_iff.mp hb))] at e
          cases e
      simp only [e1, done_andThen, f1, ok_bind]
      show (if r'.length = 0 then _ else _) = _
      rw [if_neg (by rw [f2.length]; simpa using hv)]
      exact hwhole
    · rw [parseAssignmentOperator_none h fun n ty v hh => ha ⟨n, ty, v, hh⟩]
      exact hwhole

theorem parseVariableLine_define (fs : Fs) (hm : Block.Mono P) {line : List LChar} {s : Str} {ty : AssignType} {st : St}
    (h : i.At P line) (hst : st.WF) (hd : DefineHead st.env line s ty) :
    ∃ N post v us, (∀ n, N ≤ n → parseVariableLine (recF fs n) i st =
        .ok (.done post ⟨v, defineMods, defineAction ty⟩, st.interned us)) ∧
      (st.interned us).names.variableName s = some v := by
  have hdrop := hd.dropBlanks
  obtain ⟨kw, gap, rest, rfl, h1, h2, h3, h4, h5⟩ := hd.split
  obtain ⟨r, q, e1, e2, _⟩ := whitespace_at h
  rw [hdrop.1] at e2
  obtain ⟨r1, q1, f1, f2, _⟩ := (Nom.tagNoCase_at e2 (w := "define".toList) (by unfold AsciiS; decide)).1 (by
    rw [textOf_append, List.map_append, h1]; exact List.prefix_append _ _)
  have hlen : "define".toList.length = kw.length := by rw [← h1]; simp [textOf]
  rw [hlen, List.drop_left] at f2
  obtain ⟨r2, q2, g1, g2, _⟩ := whitespace_at f2
  rw [dropWhile_blanks h2, dropWhile_solid (fun y hy => by simpa using fun hb => h3 y hy (lblank_iff.mp hb))] at g2
  obtain ⟨N, post, v, us, k1, k2⟩ := parseDefineHead_at fs hm g2 hst h5
  refine ⟨N, post, v, us, fun n hn => ?_, k2⟩
  unfold parseVariableLine
  have h0 : r.length ≠ 0 := by rw [e2.length]; simpa using hdrop.2.1
  simp only [e1, ok_bind, if_neg h0]
  unfold modifierLoop
  simp only [parseVariableAssignment_none (recF fs n) _ st e2 h4, ok_bind]
  unfold modifierKeyword
  simp only [f1, done_mapP, done_orElse, done_andThen, g1]
  exact k1 n hn

theorem handleVariableAction_define {st : St} (hst : st.WF) {p : PState} {v : VariableName} {s : Str} (ty : AssignType)
    (hv : st.names.variableName s = some v) (hd : p.currentDefine = none) :
    ∃ st' pv, handleVariableAction p st ⟨v, defineMods, defineAction ty⟩ =
        .ok ({ p with currentDefine := some ⟨v, 1⟩ }, st') ∧ st'.WF ∧ st'.names = st.names ∧ Assigned st st' s pv ∧
      DefineStores st s ty [] pv := by
  have hstart : handleVariableAction p st ⟨v, defineMods, defineAction ty⟩ = (match defineAction ty with
    | .define q => .ok ({ p with currentDefine := some ⟨v, 1⟩ }, { st with db := st.db.setVariable v q })
    | .append node => .ok ({ p with currentDefine := some ⟨v, 1⟩ },
        { st with db := st.db.appendToVariable v node.location ⟨node, .recursive, .file⟩ true })) := by
    unfold handleVariableAction
    simp only [hd]
    cases defineAction ty <;> rfl
  rw [hstart]
  have hlook : st.lookup s = st.db.getVariable v := by rw [St.lookup, hv]; rfl
  have def1 : ∀ f, ∃ st' pv, (Res.ok ({ p with currentDefine := some ⟨v, 1⟩ },
        { st with db := st.db.setVariable v ⟨Ast.mkEmpty, f, .file⟩ }) : Res (PState × St)) =
        .ok ({ p with currentDefine := some ⟨v, 1⟩ }, st') ∧ st'.WF ∧ st'.names = st.names ∧ Assigned st st' s pv ∧
      pv = ⟨Ast.mkEmpty, f, .file⟩ := by
    intro f
    obtain ⟨w1, w2⟩ := hst.set_var hv (pv := ⟨Ast.mkEmpty, f, .file⟩)
      (db := st.db.setVariable v ⟨Ast.mkEmpty, f, .file⟩) trivial (fun w => AMap.get_insert _ _ _ _) rfl rfl
    exact ⟨_, _, rfl, w1, rfl, w2, rfl⟩
  cases ty with
  | recursive =>
    obtain ⟨st', pv, h1, h2, h3, h4, rfl⟩ := def1 .recursive
    exact ⟨st', _, h1, h2, h3, h4, .recursive (a := Ast.mkEmpty)⟩
  | conditional =>
    obtain ⟨st', pv, h1, h2, h3, h4, rfl⟩ := def1 .conditional
    exact ⟨st', _, h1, h2, h3, h4, .conditional (a := Ast.mkEmpty)⟩
  | simple =>
    obtain ⟨st', pv, h1, h2, h3, h4, rfl⟩ := def1 .simple
    exact ⟨st', _, h1, h2, h3, h4, .simple (a := Ast.mkEmpty)⟩
  | bang =>
    obtain ⟨st', pv, h1, h2, h3, h4, rfl⟩ := def1 .shell
    exact ⟨st', _, h1, h2, h3, h4, .shell (a := Ast.mkEmpty)⟩
  | append =>
    cases hold : st.db.getVariable v with
    | none =>
      have hold' : st.db.variables.get v = none := hold
      obtain ⟨w1, w2⟩ := hst.set_var hv (pv := ⟨Ast.mkEmpty, .recursive, .file⟩)
        (db := st.db.appendToVariable v Ast.mkEmpty.location ⟨Ast.mkEmpty, .recursive, .file⟩ true) trivial
        (fun w => by simp only [Database.appendToVariable, hold', Database.getVariable, AMap.get_insert])
        (by simp only [Database.appendToVariable, hold']) (by simp only [Database.appendToVariable, hold'])
      exact ⟨_, _, rfl, w1, rfl, w2, .appendNew (a := Ast.mkEmpty) (by rw [hlook, hold])⟩
    | some old =>
      have hold' : st.db.variables.get v = some old := hold
      have hw : (Ast.collapsingConcat Ast.mkEmpty.location [old.value, Ast.mkConstant (.synthetic [' ']), Ast.mkEmpty]).WF := by
        refine wf_collapsing ⟨hst.values _ _ hold, ?_, trivial, trivial⟩
        show AsciiS _
        unfold AsciiS; decide
      obtain ⟨w1, w2⟩ := hst.set_var hv (pv := { old with
          value := Ast.collapsingConcat Ast.mkEmpty.location [old.value, Ast.mkConstant (.synthetic [' ']), Ast.mkEmpty] })
        (db := st.db.appendToVariable v Ast.mkEmpty.location ⟨Ast.mkEmpty, .recursive, .file⟩ true) hw
        (fun w => by simp only [Database.appendToVariable, hold', Database.getVariable, AMap.get_insert]; rfl)
        (by simp only [Database.appendToVariable, hold']) (by simp only [Database.appendToVariable, hold'])
      refine ⟨_, _, rfl, w1, rfl, w2, .append (by rw [hlook, hold]) ?_⟩
      rw [flat_location_concat]
      rfl

theorem DefineStores.body {st : St} {s : Str} {ty : AssignType} {pv pv' : VarParams} {bes : List Expr}
    (h : DefineStores st s ty [] pv) (h1 : pv' = { pv with value := pv'.value }) (h2 : pv'.value.flat = pv.value.flat ++ bes) :
    DefineStores st s ty bes pv' := by
  obtain ⟨va, fl, og⟩ := pv'
  obtain ⟨va0, fl0, og0⟩ := pv
  simp only [VarParams.mk.injEq, true_and] at h1
  obtain ⟨rfl, rfl⟩ := h1
  simp only at h2
  generalize hes : ([] : List Expr) = es at h
  have fin : va0.flat = [] → va.flat = bes := fun e => by rw [h2, e, List.nil_append]
  cases h with
  | recursive => rw [← fin hes.symm]; exact .recursive
  | conditional => rw [← fin hes.symm]; exact .conditional
  | shell => rw [← fin hes.symm]; exact .shell
  | simple => rw [← fin hes.symm]; exact .simple
  | appendNew h => rw [← fin hes.symm]; exact .appendNew h
  | append h1 h3 =>
    subst hes
    refine .append h1 ?_
    rw [h2, h3]
    simp

theorem variableName_after {names : NameCache} {cs : List NameCall} {s : Str} {v : VariableName}
    (hn : names.vars.strings.Nodup) (h : names.variableName s = some v) : (names.after cs).variableName s = some v :=
  (variableName_iff' _ (vars_nodup_after _ _ hn) _ _).mpr
    (NameCache.resolveVar_after _ _ _ _ ((variableName_iff' _ hn _ _).mp h))

/-- A whole definition.  The text `u` behind its first line leads to the text `rest` of its body. -/
theorem many_define_of (fs : Fs) {line u rest after : List LChar} {s : Str} {ty : AssignType} {bes : List Expr} {p : PState}
    {st : St} (h : FoundLine P i t line u p st) (ho : p.currentRule = none ∨ (textOf t).head? ≠ some st.commandChar)
    (ha : p.ignoring = false) (hd : DefineHead st.env line s ty) (hlt : u.length < t.length) (hfree : Free '#' rest)
    (hskip : ∀ {j : Span}, j.At P u → ∃ k, k.At P rest ∧ ∀ {p : PState} {st : St} {l : Span} {p' : PState} {st' : St},
      Many fs k p st l p' st' → Many fs j p st l p' st')
    {fin : VariableName → Option DefineState} (hb : Collects fs P 1 rest bes after fin) :
    ∃ us, ∀ p' st', p.closeRule (st.interned us) = .ok (p', st') → st'.WF → p'.currentRule = none → p'.currentDefine = none →
      (∃ cs, st'.names = (st.interned us).names.after cs) →
      ∃ j st'' pv v, Many fs i p st j { p' with currentDefine := fin v } st'' ∧ j.At P after ∧ after <:+ rest ∧ st''.WF ∧ Assigned st' st'' s pv ∧
        DefineStores st' s ty bes pv := by
  have hdrop := hd.dropBlanks
  obtain ⟨j, b, e1, e2, e3⟩ := h.found
  have hat := e3.at
  have hlen : b.len ≠ 0 := by
    have := hat.length
    have e : b.span.length = b.len := rfl
    rw [← e, this]
    simpa using hdrop.2.1
  obtain ⟨N, post, v, us, f1, f2⟩ := parseVariableLine_define fs (e3.mono h.pieces h.mono) hat h.wf hd
  refine ⟨us, fun p' st' g1 g2 g3 g4 ⟨cs, g5⟩ => ?_⟩
  have hv : st'.names.variableName s = some v := by
    rw [g5]; exact variableName_after (h.wf.interned us).nodup f2
  obtain ⟨st1, pv, k1, k2, k3, k4, k5⟩ := handleVariableAction_define g2 (p := p') ty hv g4
  obtain ⟨k, kat, kmany⟩ := hskip e2
  obtain ⟨j', st'', pv', m1, m2, m3, m4, m5, m6, m7⟩ := hb k
    { p' with currentDefine := some ⟨v, 1⟩ } _ v s _ kat hfree g3 rfl k2
    (by rw [k3]; exact hv) k4.now
  refine ⟨j', st'', pv', v, .step N ?_ (fun n hn => ?_) (kmany m1), m2, m3, m4, ?_, k5.body m6 m7⟩
  · rw [h.at_.length, e2.length]
    exact hlt
  · rw [parseLine_collapsed_of fs _ h.at_ h.comment h.define h.command ho]
    unfold parseCollapsed
    simp only [e1, ok_bind, if_neg hlen, parseConditionalLine_none hat (by rw [hdrop.1]; exact hdrop.2.2),
      if_neg (show ¬ p.ignoring = true by rw [ha]; decide)]
    unfold parseStatement
    simp only [f1 n hn, ok_bind, g1, k1]
    rfl
  · rcases m5 with ⟨rfl, rfl⟩ | m5
    · exact k4
    · exact k4.trans m5

theorem PState.no_define {p : PState} (h : p.currentDefine = none) : ({ p with currentDefine := none } : PState) = p := by
  cases p
  simp only at h
  subst h
  rfl

/-- A whole definition. -/
theorem many_define (fs : Fs) {line rest after : List LChar} {s : Str} {ty : AssignType} {bes : List Expr} {p : PState}
    {st : St} (h : AtLine P i t line rest p st) (ho : p.currentRule = none ∨ (textOf t).head? ≠ some st.commandChar)
    (ha : p.ignoring = false) (hd : DefineHead st.env line s ty) (hb : DefineBody Begins 1 rest bes after) :
    ∃ us, ∀ p' st', p.closeRule (st.interned us) = .ok (p', st') → st'.WF → p'.currentRule = none → p'.currentDefine = none →
      (∃ cs, st'.names = (st.interned us).names.after cs) →
      ∃ j st'' pv, Many fs i p st j p' st'' ∧ j.At P after ∧ after <:+ t ∧ st''.WF ∧ Assigned st' st'' s pv ∧
        DefineStores st' s ty bes pv := by
  obtain ⟨us, hus⟩ := many_define_of fs h.found ho ha hd (h.logical.lt (h.logical.ne_nil hd.dropBlanks.2.1))
    (h.comment.of_suffix h.logical.suffix) (fun hj => ⟨_, hj, id⟩) (many_body fs h.pieces h.mono hb)
  refine ⟨us, fun p' st' g1 g2 g3 g4 g5 => ?_⟩
  obtain ⟨j, st'', pv, _, k1, k2, k3, k4, k5, k6⟩ := hus p' st' g1 g2 g3 g4 g5
  rw [PState.no_define g4] at k1
  exact ⟨j, st'', pv, k1, k2, k3.trans h.logical.suffix, k4, k5, k6⟩

end Hastur
