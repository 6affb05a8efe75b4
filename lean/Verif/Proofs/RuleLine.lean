import Verif.Proofs.RuleWords
/-
Lemmas: rule lines.
-/
namespace Hastur

open Res Span

variable {P : Block} {t : List LChar} {i : Span}

/-! ### File names -/

theorem fieldsFrom_congr {sep sep' : Char → Bool} (cur : List LChar) (h : ∀ x ∈ t, sep x.1 = sep' x.1) :
    fieldsFrom sep cur t = fieldsFrom sep' cur t := by
  induction t generalizing cur with
  | nil => rfl
  | cons x t ih =>
    have ih' := fun c => ih c fun y hy => h y (List.mem_cons_of_mem _ hy)
    simp only [fieldsFrom, h x List.mem_cons_self, ih']

theorem fields_names {stops : Str} (h : FileNames t) (hs : ∀ c ∈ stops, ¬ WordChar c) :
    fields (fileSep stops) t = wordsOf t := by
  refine fieldsFrom_congr [] fun x hx => ?_
  rcases h x hx with hw | hw
  · have h1 : isWhitespace x.1 = false := hw.1
    have h2 : (x.1 == Char.ofNat 0) = false := by simpa using (wordChar_ne hw).2.2.1
    have h3 : stops.contains x.1 = false := by
      rw [← Bool.not_eq_true, List.contains_iff_mem]
      exact fun hm => hs _ hm hw
    unfold fileSep
    rw [h1, h2, h3]
    rfl
  · simp [fileSep, hw]

theorem fieldsFrom_space (sep : Char → Bool) (hs : sep ' ' = true) (cur t : List LChar) (l : Location) :
    fieldsFrom sep cur (t ++ [(' ', l)]) = fieldsFrom sep cur t := by
  induction t generalizing cur with
  | nil =>
    simp only [List.nil_append, fieldsFrom, hs, if_true]
  | cons x t ih => simp only [List.cons_append, fieldsFrom, ih]

/-- The blocks have the given texts. -/
def Texts (ts : List (List LChar)) (bs : List Block) : Prop := List.Forall₂ Buf ts bs

theorem Blocks.texts {P : Block} {ts : List (List LChar)} {bs : List Block} (h : Blocks P ts bs) : Texts ts bs :=
  List.Forall₂.imp (fun _ _ h => h.buf) h

theorem targets_fileNames {env : Env} {ts tt : List LChar} {vs : List Str} (h : TargetsExpand env ts tt vs) : FileNames tt := by
  induction h with
  | last _ _ _ _ _ hf => exact hf
  | more _ _ _ _ _ _ hf _ _ ih =>
    intro x hx
    rcases List.mem_append.mp hx with hx | hx
    · exact hf x hx
    · rcases List.mem_cons.mp hx with rfl | hx
      · exact .inr (by decide)
      · exact ih x hx

theorem parseFileSeq_names {b : Block} (h : Buf t b) (hf : FileNames t) {stops : Str} (hs : ∀ c ∈ stops, ¬ WordChar c)
    (hx : stops.contains '\\' = false) : ∃ bs, parseFileSeq stops b.span = .ok bs ∧ Texts (wordsOf t) bs := by
  obtain ⟨bs, e1, e2⟩ := parseFileSeq_spec stops hx h.at (fileNames_free hf).1
  rw [fields_names hf hs] at e2
  exact ⟨bs, e1, e2.texts⟩

theorem hasSecondColon_none (n : Nat) {s : Str} (h : ':' ∉ s) : hasSecondColon n s = false := by
  induction s generalizing n with
  | nil => rfl
  | cons c s ih =>
    simp only [List.mem_cons, not_or] at h
    rw [hasSecondColon]
    split
    · exact ih _ h.2
    · rw [if_neg fun e => h.1 e.symm]
      exact ih _ h.2

/-! ### Everything after the targets -/

/-- What is known about the command after the semicolon. -/
inductive CommandAt : Option (List LChar) → Option Block → Prop
  | none : CommandAt none none
  | some {cmd : List LChar} {b : Block} : Buf cmd b → Block.Mono b → CommandAt (some cmd) (some b)

/-- The text after the colons, as the parser puts it together. -/
def afterText (ds : List LChar) : Option (List LChar) → List LChar
  | none => ds
  | some cmd => ds ++ (';', .synthetic) :: cmd

/-- The first command of a rule, given in the rule line. -/
inductive FirstCommand : List (List Expr) → Option Ast → Prop
  | none : FirstCommand [] none
  | some {a : Ast} : a.WF → FirstCommand [a.flat] (some a)

/-- The text after the targets can be read: every piece of the block has one segment, or there is no command, there are
no dollar signs, and the text begins in the first piece of the only window of the block. -/
def AfterReadable (P : Block) (ds lt : List LChar) (command : Option (List LChar)) (ln : Span) : Prop :=
  Block.Mono P ∨ (command = none ∧ Free '$' ds ∧ ds ≠ [] ∧ ds.length ≤ lt.length ∧ ln.EndsAt P.len ∧
    ∃ c k, P.content = [c] ∧ CRef.Front k c ∧ P.len ≤ k + ds.length)

/-- A block with one character has one piece. -/
theorem Buf.single {b : Block} {x : LChar} (h : Buf [x] b) : ∃ a, b.content = [a] ∧ a.length = 1 := by
  have hl := h.len
  rw [Block.len_eq] at hl
  have hs := h.solid
  match hb : b.content with
  | [] => rw [hb] at hl; simp at hl
  | [a] => rw [hb] at hl; exact ⟨a, rfl, by simpa using hl⟩
  | a :: a' :: as =>
    have h1 := hs a (by rw [hb]; simp)
    have h2 := hs a' (by rw [hb]; simp)
    rw [hb] at hl
    simp at hl
    omega

/-- The dependencies can be read. -/
theorem AfterReadable.deps {ln slice : Span} {after b1 b2 : Block} {at' lt cs ds : List LChar} {command : Option (List LChar)}
    (h : AfterReadable P ds lt command ln) (hafter : Buf at' after) (hln : ln.At P lt) (hat : at' ++ lt = cs ++ ds)
    (hcs : cs.length ≤ 1) (hp1 : Block.empty.pushAll after.span = .ok b1) (hb1 : Buf at' b1)
    (hq1 : b1.pushAll ln = .ok b2) (hq2 : Buf (cs ++ ds) b2)
    (hs : slice.At b2 ds) (hs' : (slice = b2.span ∧ cs = []) ∨ (cs.length = 1 ∧ ∃ q, b2.span.takeSplit 1 = .ok (slice, q))) :
    Block.Mono P ∨ (command = none ∧ Free '$' ds ∧ (slice.sliceTo ds.length).segments.crash = false) := by
  rcases h with h | ⟨h1, h2, h3, h4, h5, c, k, h6, h7, h8⟩
  · exact .inl h
  refine .inr ⟨h1, h2, ?_⟩
  have hlen := congrArg List.length hat
  simp only [List.length_append] at hlen
  have hpos := List.length_pos_iff.mpr h3
  have hlnl := hln.length
  have hoff := h5.2
  have h0 : ln.length ≠ 0 := by omega
  refine Span.front_after (m := b2.len) hln.parent h6 h5 h0 hq1 hs h7 ?_ ds.length (by rw [hs.length])
  by_cases ha : at' = []
  · left
    have hb1c : b1.content = [] := by
      unfold Block.pushAll at hp1
      have : after.span.length = 0 := by
        show after.len = 0
        rw [hafter.len, ha]; rfl
      rw [if_pos this] at hp1
      cases hp1
      rfl
    have hends : slice.EndsAt b2.len := by
      have hspan : b2.span.EndsAt b2.len := ⟨rfl, by simp [Block.span]⟩
      rcases hs' with ⟨rfl, _⟩ | ⟨_, q, hq⟩
      · exact hspan
      · obtain ⟨l, _, hc⟩ := Block.pushAll_window hln.parent h6 h5 h0 hq1
        rw [hb1c] at hc
        exact (hspan.takeSplit (i := b2.span) hc hq).1
    refine ⟨hb1c, hends, ?_⟩
    have := hends.2
    rw [hs.length, hq2.len, List.length_append] at this
    rw [ha, List.length_nil] at hlen
    omega
  · right
    have hapos := List.length_pos_iff.mpr ha
    have hone : at'.length = 1 := by omega
    obtain ⟨x, rfl⟩ := List.length_eq_one_iff.mp hone
    obtain ⟨a, a1, a2⟩ := hb1.single
    rcases hs' with ⟨_, rfl⟩ | ⟨hc1, hq⟩
    · simp at hlen; omega
    · simp at hone
      exact ⟨a, a1, a2, by simp at hlen; omega, hq⟩

theorem finishRule_names (fs : Fs) {rest ln : Span} {pre after : Block} {at' lt cs ds : List LChar} {double : Bool}
    {tns dns : List (List LChar)} {postSemi : Option Block} {command : Option (List LChar)} {st : St} {des : List Expr} {dt : List LChar} {vs : List Str}
    (hm : AfterReadable P ds lt command ln) (hP : P.Solid)
    (htargets : ∃ targets, parseFileSeq [] pre.span = .ok targets ∧ Texts tns targets)
    (hafter : Buf at' after) (hamono : at' ≠ [] → Block.Mono after) (hln : ln.At P lt) (hat : at' ++ lt = cs ++ ds)
    (hcs : textOf cs = if double then [':'] else []) (hd : (textOf ds).head? ≠ some ':') (hcommand : CommandAt command postSemi)
    (hvar : ¬ VarLike ((afterText ds command).dropWhile lblank)) (hst : st.WF) (hdr : Reads ds (.ok des))
    (hde : Expands st.env des dt vs) (f3 : Free ';' dt) (hcolon : hasSecondColon 0 (textOf dt) = false)
    (hdeps : ∀ b, Buf dt b → ∃ deps, parseFileSeq [':'] b.span = .ok deps ∧ Texts dns deps)
    {recipe : List (List Expr)} (hcr : CommandReads command recipe) :
    ∃ N targets deps a, Texts tns targets ∧ Texts dns deps ∧ FirstCommand recipe a ∧
      ∀ n, N ≤ n → finishRule (recF fs n) rest pre after ln postSemi st =
        .ok (.done rest (.newRule targets deps double a), st.interned vs) := by
  obtain ⟨targets, t1, t2⟩ := htargets
  -- the text after the targets
  obtain ⟨b1, p1, p2, p3⟩ := Buf.empty.pushAll hafter.at hafter.solid
  obtain ⟨b2, q1, q2, q3⟩ := p2.pushAll hln hP
  rw [List.nil_append, hat] at q2
  have hm2 : Block.Mono P → Block.Mono b2 := fun hm => q3 (p3 trivial hamono) (fun _ => hm)
  have hblock : ∃ b3, (match postSemi with
      | some content => (b2.push CRef.semicolon).pushAll content.span
      | none => .ok b2 : Res Block) = .ok b3 ∧ Buf (cs ++ afterText ds command) b3 ∧
        (Block.Mono P → Block.Mono b3) ∧ (command = none → b3 = b2) := by
    cases hcommand with
    | none => exact ⟨b2, rfl, q2, hm2, fun _ => rfl⟩
    | @some cmd b hb hbm =>
      obtain ⟨s1, s2⟩ := q2.semicolon
      obtain ⟨b3, r1, r2, r3⟩ := s1.pushAll hb.at hb.solid
      exact ⟨b3, r1, by simpa [afterText] using r2, fun hm => r3 (s2 (hm2 hm)) fun _ => hbm, by simp⟩
  obtain ⟨b3, r1, r2, r3, r4⟩ := hblock
  -- the second colon
  have hslice : ∃ slice, slice.At b3 (afterText ds command) ∧
      ((slice = b3.span ∧ cs = []) ∨ (cs.length = 1 ∧ ∃ q, b3.span.takeSplit 1 = .ok (slice, q))) ∧ (Nom.tag [':'] b3.span >>= fun
      | .done i _ => do
        let n ← usub b2.len 1
        return (i, true, n)
      | .err _ => .ok (b3.span, false, b2.len) : Res (Span × Bool × Nat)) = .ok (slice, double, ds.length) := by
    have hat3 := r2.at
    cases double with
    | true =>
      obtain ⟨j, q, e1, e2, _⟩ := (Nom.tag_at hat3 (w := [':']) (by unfold AsciiS; decide)).1 (by
        rw [textOf_append, hcs]; exact ⟨_, rfl⟩)
      have hl : cs.length = 1 := by rw [← textOf_length cs, hcs]; rfl
      refine ⟨j, ?_, .inr ⟨hl, q, Nom.tag_takeSplit e1⟩, ?_⟩
      · have : ([':'] : Str).length = cs.length := by rw [hl]; rfl
        rw [this, List.drop_left] at e2
        exact e2
      · rw [e1]
        simp only [ok_bind]
        rw [q2.len, List.length_append, hl]
        have : usub (1 + ds.length) 1 = .ok ds.length := by
          unfold usub
          rw [if_pos (by omega), Nat.add_sub_cancel_left]
        rw [this]
        rfl
    | false =>
      have hl : cs = [] := by
        have : cs.length = 0 := by rw [← textOf_length cs, hcs]; rfl
        exact List.length_eq_zero_iff.mp this
      subst hl
      rw [List.nil_append] at hat3
      have hmiss := tag_miss hat3 (w := [':']) (by unfold AsciiS; decide) (by
        rintro ⟨v, hv⟩
        have : ∃ x ∈ afterText ds command, (textOf (afterText ds command)).head? = some x.1 := by
          cases hh : afterText ds command with
          | nil => rw [hh] at hv; simp at hv
          | cons y u => exact ⟨y, List.mem_cons_self, rfl⟩
        rw [← hv] at this
        cases ds with
        | nil =>
          cases command with
          | none => simp [afterText] at hv
          | some cmd => simp [afterText] at hv
        | cons y ds =>
          have hy : y.1 ≠ ':' := fun e => hd (by rw [textOf_cons, e]; rfl)
          cases command with
          | none => simp [afterText] at hv; exact hy hv.1.symm
          | some cmd => simp [afterText] at hv; exact hy hv.1.symm)
      refine ⟨b3.span, hat3, .inl ⟨rfl, rfl⟩, ?_⟩
      rw [hmiss]
      simp only [ok_bind]
      rw [q2.len, List.nil_append]
  obtain ⟨slice, s1, s3, s2⟩ := hslice
  -- the dependencies
  have hpart : (slice.sliceTo ds.length).At b3 ds := by
    have : ds.length ≤ (afterText ds command).length := by cases command <;> simp [afterText]
    have h1 := s1.sliceTo this
    have h2 : (afterText ds command).take ds.length = ds := by cases command <;> simp [afterText]
    rwa [h2] at h1
  have hcs1 : cs.length ≤ 1 := by rw [← textOf_length cs, hcs]; cases double <;> simp
  have hready : Block.Mono P ∨ (command = none ∧ Free '$' ds ∧ (slice.sliceTo ds.length).segments.crash = false) := by
    cases hcommand with
    | some _ _ =>
      rcases hm with hm | hm
      · exact .inl hm
      · cases hm.1
    | none =>
      cases r4 rfl
      exact hm.deps hafter hln hat hcs1 p1 p2 q1 q2 s1 s3
  obtain ⟨N, buf, d1, d2⟩ := expandSegment_reads fs (hready.imp r3 fun h => h.2) hpart hdr hst hde
  -- the command
  have hcmd : ∃ (ps : Option Span) (preB : Block) (a : Option Ast) (rr : Span), Buf dt preB ∧ FirstCommand recipe a ∧
      (if slice.length > ds.length then do
        let s ← slice.sliceFrom (ds.length + 1)
        return some s
      else .ok none : Res (Option Span)) = .ok ps ∧
      ∃ postB, (match ps with
        | none => do
          match ← takeUntilUnquote buf.span (· == ';') with
          | (pre, some (_, post)) => do
            let b ← post.toNewBlock
            return (pre, some b)
          | (pre, none) => return (pre, none)
        | some s => do
          let b ← s.toNewBlock
          return (buf, some b) : Res (Block × Option Block)) = .ok (preB, postB) ∧
      (match postB with
        | some b => (parseAst b.span).mapP some
        | none => done Span.empty none : PRes (Option Ast)) = .ok (.done rr a) := by
    cases command with
    | none =>
      have hl : ¬ slice.length > ds.length := by rw [s1.length]; simp [afterText]
      obtain ⟨pb, e1, e2⟩ := takeUntilUnquote_copy (· == ';') (by decide) (by decide) d1.at
        (fun x hx => by simpa using f3 x hx)
      cases hcr
      refine ⟨none, pb, none, _, e2.buf, .none, by rw [if_neg hl], none, ?_, rfl⟩
      simp only [e1, ok_bind]
      rfl
    | some cmd =>
      have hl : slice.length > ds.length := by rw [s1.length]; simp [afterText]
      obtain ⟨s, e1, e2⟩ := s1.sliceFrom (n := ds.length + 1) (by simp [afterText])
      have e2' : s.At b3 cmd := by
        have h1 : (ds.length + 1) - ds.length = 1 := by omega
        rw [afterText, List.drop_append, List.drop_of_length_le (by omega), h1] at e2
        exact e2
      obtain ⟨pb, g1, g2⟩ := e2'.part
      obtain ⟨ces, hces, rfl⟩ : ∃ ces, Reads cmd (.ok ces) ∧ recipe = [ces] := by
        cases hcr with
        | some h => exact ⟨_, h, rfl⟩
      have hmono : Block.Mono P := by
        rcases hready with hm | hm
        · exact hm
        · cases hm.1
      obtain ⟨rr, a, k1, _, k3, k4⟩ := parseAst_at (g2.mono (r3 hmono)) g2.at hces
      subst k3
      refine ⟨some s, buf, some a, rr, d1, .some k4, ?_, some pb, ?_, ?_⟩
      · rw [if_pos hl, e1]; rfl
      · simp only [g1, ok_bind]; rfl
      · show (parseAst pb.span).mapP some = _
        rw [k1]; rfl
  obtain ⟨ps, preB, a, rr, c1, c2, c3, postB, c4, c5⟩ := hcmd
  obtain ⟨deps, k1, k2⟩ := hdeps preB c1
  refine ⟨N, targets, deps, a, t2, k2, c2, fun n hn => ?_⟩
  obtain ⟨kk, hvl⟩ := parseVariableLine_none (recF fs n) st s1 hvar
  unfold finishRule
  refine Res.bind_eq_ok.mpr ⟨_, t1, ?_⟩
  refine Res.bind_eq_ok.mpr ⟨_, p1, ?_⟩
  refine Res.bind_eq_ok.mpr ⟨_, q1, ?_⟩
  refine Res.bind_eq_ok.mpr ⟨_, r1, ?_⟩
  refine Res.bind_eq_ok.mpr ⟨_, s2, ?_⟩
  refine Res.bind_eq_ok.mpr ⟨_, hvl, ?_⟩
  refine Res.bind_eq_ok.mpr ⟨_, c3, ?_⟩
  refine Res.bind_eq_ok.mpr ⟨_, d2 n hn, ?_⟩
  refine Res.bind_eq_ok.mpr ⟨_, c4, ?_⟩
  refine Res.bind_eq_ok.mpr ⟨_, c5, ?_⟩
  dsimp only
  rw [c1.at.chars]
  have hall : (⟨textOf dt, false⟩ : CStream).all = .ok (textOf dt) := rfl
  rw [hall]
  simp only [ok_bind, hcolon]
  rw [k1]
  rfl

theorem finishRule_at (fs : Fs) {rest ln : Span} {pre after : Block} {tt extra at' lt cs ds : List LChar} {double : Bool}
    {postSemi : Option Block} {command : Option (List LChar)} {st : St} {des : List Expr} {dt : List LChar} {vs : List Str}
    (hm : AfterReadable P ds lt command ln) (hP : P.Solid)
    (hpre : Buf (tt ++ extra) pre) (htt : FileNames tt) (hx : extra = [] ∨ extra = [(' ', .synthetic)])
    (hafter : Buf at' after) (hamono : at' ≠ [] → Block.Mono after) (hln : ln.At P lt) (hat : at' ++ lt = cs ++ ds)
    (hcs : textOf cs = if double then [':'] else []) (hd : ∀ x ∈ ds, x.1 ≠ ':') (hcommand : CommandAt command postSemi)
    (hvar : ¬ VarLike ((afterText ds command).dropWhile lblank)) (hst : st.WF) (hdr : Reads ds (.ok des))
    (hde : Expands st.env des dt vs) (hdt : FileNames dt)
    {recipe : List (List Expr)} (hcr : CommandReads command recipe) :
    ∃ N targets deps a, Texts (wordsOf tt) targets ∧ Texts (wordsOf dt) deps ∧ FirstCommand recipe a ∧
      ∀ n, N ≤ n → finishRule (recF fs n) rest pre after ln postSemi st =
        .ok (.done rest (.newRule targets deps double a), st.interned vs) := by
  -- the targets
  have htargets : ∃ targets, parseFileSeq [] pre.span = .ok targets ∧ Texts (wordsOf tt) targets := by
    rcases hx with rfl | rfl
    · rw [List.append_nil] at hpre
      exact parseFileSeq_names hpre htt (by simp) rfl
    · have hf : FileNames (tt ++ [(' ', .synthetic)]) := by
        intro x hx
        rcases List.mem_append.mp hx with hx | hx
        · exact htt x hx
        · cases List.mem_singleton.mp hx
          exact .inr (by decide)
      obtain ⟨bs, e1, e2⟩ := parseFileSeq_names hpre hf (stops := []) (by simp) rfl
      unfold wordsOf fields at e2
      rw [fieldsFrom_space _ (by decide)] at e2
      exact ⟨bs, e1, e2⟩
  obtain ⟨f1, f2, f3⟩ := fileNames_free hdt
  refine finishRule_names fs hm hP htargets hafter hamono hln hat hcs ?_ hcommand hvar hst hdr hde f3
    (hasSecondColon_none 0 (free_iff.mp f2)) (fun b hb => ?_) hcr
  · cases ds with
    | nil => simp
    | cons y ds =>
      simp only [textOf_cons, List.head?_cons, ne_eq, Option.some.injEq]
      exact hd y List.mem_cons_self
  · exact parseFileSeq_names hb hdt (stops := [':']) (by
      intro c hc hw
      cases List.mem_singleton.mp hc
      exact hw.2 (by decide)) (by decide)

/-! ### Locations do not matter for the kind of line -/

theorem textOf_split {b : List LChar} {x y : Str} (h : textOf b = x ++ y) :
    ∃ b1 b2, b = b1 ++ b2 ∧ textOf b1 = x ∧ textOf b2 = y := by
  obtain ⟨b1, b2, h1, h2, h3⟩ := List.map_eq_append_iff.mp h
  exact ⟨b1, b2, h1, h2, h3⟩

theorem blanks_text {a b : List LChar} (h : textOf a = textOf b) (ha : Blanks a) : Blanks b := by
  intro x hx
  have : x.1 ∈ textOf a := by rw [h]; exact mem_textOf.mpr ⟨x, hx, rfl⟩
  obtain ⟨y, hy, hxy⟩ := mem_textOf.mp this
  rw [← hxy]; exact ha y hy

theorem head_text {a b : List LChar} (h : textOf a = textOf b)
    (ha : ∀ x, a.head? = some x → ¬ (x.1 = ' ' ∨ x.1 = '\t')) : ∀ x, b.head? = some x → ¬ (x.1 = ' ' ∨ x.1 = '\t') := by
  intro x hx
  cases b with
  | nil => cases hx
  | cons y b =>
    cases a with
    | nil => cases h
    | cons z a =>
      simp only [textOf_cons, List.cons.injEq] at h
      simp only [List.head?_cons, Option.some.injEq] at hx
      rw [← hx, ← h.1]
      exact ha z rfl

theorem AssignText.congr {a b name value : List LChar} {ty : AssignType} (h : textOf a = textOf b)
    (ha : AssignText a name ty value) : ∃ name' value', AssignText b name' ty value' := by
  obtain ⟨name, gap, op, gap', value, ty, h1, h2, h3, h4, h5⟩ := ha
  simp only [textOf_append] at h
  obtain ⟨n', b, rfl, e1, e2⟩ := textOf_split h.symm
  obtain ⟨g', b, rfl, e3, e4⟩ := textOf_split e2
  obtain ⟨o', b, rfl, e5, e6⟩ := textOf_split e4
  obtain ⟨g'', v', rfl, e7, e8⟩ := textOf_split e6
  refine ⟨n', v', .mk n' g' o' g'' v' ty ?_ (blanks_text e3.symm h2) (by rw [e5]; exact h3) (blanks_text e7.symm h4)
    (head_text e8.symm h5)⟩
  intro x hx
  have : x.1 ∈ textOf name := by rw [← e1]; exact mem_textOf.mpr ⟨x, hx, rfl⟩
  obtain ⟨y, hy, hxy⟩ := mem_textOf.mp this
  rw [← hxy]; exact h1 y hy

theorem VarLike.congr {a b : List LChar} (h : textOf a = textOf b) (ha : VarLike a) : VarLike b := by
  induction ha generalizing b with
  | assign ha =>
    obtain ⟨_, _, hb⟩ := ha.congr h
    exact .assign hb
  | define hp => exact .define (by rw [← h]; exact hp)
  | undefine hp => exact .undefine (by rw [← h]; exact hp)
  | modifier h1 h2 h3 _ ih =>
    simp only [textOf_append] at h
    obtain ⟨k', b, rfl, e1, e2⟩ := textOf_split h.symm
    obtain ⟨g', b, rfl, e3, e4⟩ := textOf_split e2
    exact .modifier (by rw [e1]; exact h1) (blanks_text e3.symm h2) (head_text e4.symm h3) (ih e4.symm)

theorem textOf_dropBlank (t : List LChar) : textOf (t.dropWhile lblank) = (textOf t).dropWhile isBlank := by
  induction t with
  | nil => rfl
  | cons x t ih =>
    rw [List.dropWhile_cons, textOf_cons, List.dropWhile_cons]
    have : lblank x = isBlank x.1 := rfl
    rw [this]
    split
    · exact ih
    · rfl

/-! ### The rule line -/

theorem segment_chars {w : List LChar} (h : Segment w) : ∀ x ∈ w, x.1 ∉ [';', '#', '\\'] := by
  induction h with
  | nil => intro x hx; cases hx
  | char hw _ ih =>
    intro x hx
    rcases List.mem_cons.mp hx with rfl | hx
    · have := wordChar_ne hw
      simp only [List.mem_cons, List.not_mem_nil, or_false, not_or]
      exact ⟨this.2.2.2.2.2.1, this.2.2.2.2.2.2.1, this.2.2.2.2.2.2.2.2⟩
    · exact ih x hx
  | ref _ _ hn _ ih =>
    intro x hx
    rcases List.mem_cons.mp hx with rfl | hx
    · simp
    rcases List.mem_cons.mp hx with rfl | hx
    · simp
    rcases List.mem_append.mp hx with hx | hx
    · exact hn x hx
    rcases List.mem_cons.mp hx with rfl | hx
    · simp
    · exact ih x hx
  | single hw _ _ ih =>
    intro x hx
    rcases List.mem_cons.mp hx with rfl | hx
    · simp
    rcases List.mem_cons.mp hx with rfl | hx
    · have := wordChar_ne hw
      simp only [List.mem_cons, List.not_mem_nil, or_false, not_or]
      exact ⟨this.2.2.2.2.2.1, this.2.2.2.2.2.2.1, this.2.2.2.2.2.2.2.2⟩
    · exact ih x hx
  | brace hn _ ih =>
    intro x hx
    rcases List.mem_cons.mp hx with rfl | hx
    · simp
    rcases List.mem_cons.mp hx with rfl | hx
    · simp
    rcases List.mem_append.mp hx with hx | hx
    · have := wordChar_ne (hn x hx).1
      simp only [List.mem_cons, List.not_mem_nil, or_false, not_or]
      exact ⟨this.2.2.2.2.2.1, this.2.2.2.2.2.2.1, this.2.2.2.2.2.2.2.2⟩
    rcases List.mem_cons.mp hx with rfl | hx
    · simp
    · exact ih x hx

theorem blanks_chars {w : List LChar} (h : Blanks w) : ∀ x ∈ w, x.1 ∉ [';', '#', '\\'] := by
  intro x hx
  rcases h x hx with e | e <;> rw [e] <;> decide

theorem targets_chars {env : Env} {ts tt : List LChar} {vs : List Str} (h : TargetsExpand env ts tt vs) :
    ∀ x ∈ ts, x.1 ∉ [';', '#', '\\'] := by
  induction h with
  | last hw _ hg =>
    intro x hx
    rcases List.mem_append.mp hx with hx | hx
    · exact segment_chars hw x hx
    · exact blanks_chars hg x hx
  | more hw _ hg _ _ _ _ _ _ ih =>
    intro x hx
    rcases List.mem_append.mp hx with hx | hx
    · exact segment_chars hw x hx
    rcases List.mem_append.mp hx with hx | hx
    · exact blanks_chars hg x hx
    · exact ih x hx

/-- A line in one piece. -/
theorem makefileLine_one {strip : Bool} {l rest : List LChar} {reason : LineEnd} (h : i.At P t)
    (hg : grabSpec (if strip then t.dropWhile lblank else t) = (l, reason, rest)) (hev : trailingSlashes (textOf l) % 2 = 0) :
    ∃ r b, makefileLine i .gnu strip = .ok (.done r b) ∧ r.At P rest ∧ LineBlock P l b ∧ b.content.length ≤ 1 := by
  have hgrab : ∃ r l', (if strip = true then (whitespace i).andThen fun i _ => grabLine i else grabLine i) =
      .ok (.done r (l', reason)) ∧ r.At P rest ∧ l'.At P l := by
    cases strip with
    | true =>
      obtain ⟨i1, w, e1, e2, _⟩ := whitespace_at h
      obtain ⟨r, l', f1, f2, f3⟩ := grabLine_at e2
      simp only [if_true] at hg
      rw [hg] at f1 f2 f3
      exact ⟨r, l', by simp [e1, f1], f2, f3⟩
    | false =>
      obtain ⟨r, l', f1, f2, f3⟩ := grabLine_at h
      simp only [Bool.false_eq_true, if_false] at hg
      rw [hg] at f1 f2 f3
      exact ⟨r, l', by simp [f1], f2, f3⟩
  obtain ⟨r, l', f1, f2, f3⟩ := hgrab
  obtain ⟨c, c1, c2, _, c4, c5⟩ := f3.toContentReference
  obtain ⟨b, b1, b2⟩ := (Lines.nil.snoc c2 c4 c5).block
  rw [List.nil_append] at b1
  refine ⟨r, b, ?_, f2, b2, Block.new_length b1⟩
  simp only [makefileLine, f1, done_andThen, endsWithBackslash_at f3, ok_bind, if_pos hev, c1, b1]
  rfl

theorem makefileLine_physical {line rest : List LChar} (h : i.At P t) (hl : Physical t line rest) (hf : Free '#' t) :
    ∃ r b, makefileLine i .gnu true = .ok (.done r b) ∧ r.At P rest ∧ LineBlock P line b ∧ b.content.length ≤ 1 := by
  obtain ⟨h1, h2, h3, h4, h5⟩ := hl
  rename_i lead tail
  have hlast : LastLine lead line tail rest := ⟨h1, h2, fun x hx => by simpa using fun hb => h3 x hx (lblank_iff.mp hb), h4, h5⟩
  obtain ⟨reason, e1, _⟩ := hlast.grab (Free.append.mp hf).2
  exact makefileLine_one (strip := true) h e1 h4

theorem Physical.logical {line rest : List LChar} (h : Physical t line rest) : Logical t line rest := by
  obtain ⟨h1, h2, h3, h4, h5⟩ := h
  rename_i lead tail
  have := Logical.mk [] lead line tail rest (by simp) h1 h2 h3 h4 h5
  simpa [joinSpaces] using this

/-- A text that is one line by itself is wrapped as a whole. -/
theorem makefileLine_wraps {r : Span} {b : Block} (h : i.At P t) (hcom : Free '#' t) (hnl : Free '\n' t)
    (hev : trailingSlashes (textOf t) % 2 = 0) (hm : makefileLine i .gnu false = .ok (.done r b)) :
    ∃ v, i.toNewBlock = .ok v ∧ Block.new [] [CRef.ofNode (.concat v)] = .ok b := by
  have hgrab : ∃ r', grabLine i = .ok (.done r' (i, .eof)) := by
    have h1 := (Nom.takeUntil_at h (c := '#') (by decide)).2 (free_iff.mp hcom)
    have h2 := (Nom.takeUntil_at h (c := '\n') (by decide)).2 (free_iff.mp hnl)
    have h3 : Nom.takeUntil ['\r', '\n'] i = .ok (.err (.error .code)) := by
      unfold Nom.takeUntil
      rw [findSubstring_eq h.good.wf (by unfold AsciiS; decide) (by decide), h.text,
        firstOcc_none_of (c := '\n') (by decide) (free_iff.mp hnl)]
      rfl
    obtain ⟨r, e1, e2⟩ := Nom.rest_at h
    exact ⟨r, by unfold grabLine; rw [h1, h2, h3]; simp [e1]⟩
  obtain ⟨r', hg⟩ := hgrab
  simp only [makefileLine, hg, done_andThen, Bool.false_eq_true, if_false, endsWithBackslash_at h, ok_bind, if_pos hev] at hm
  obtain ⟨c, e1, hm⟩ := Res.bind_eq_ok.mp hm
  obtain ⟨b', e2, hm⟩ := Res.bind_eq_ok.mp hm
  cases hm
  unfold Span.toContentReference at e1
  obtain ⟨v, e3, e4⟩ := Res.bind_eq_ok.mp e1
  cases e4
  exact ⟨v, e3, e2⟩

theorem indexed_snd (n : Nat) (t : Str) : (Span.indexed n t).map Prod.snd = t := by
  induction t generalizing n with
  | nil => rfl
  | cons c t ih => simp [ih]

theorem unquoteLoop_seen {stop : Char → Bool} {crash : Bool} {xs : List (Nat × Char)} {st st' : UnquoteState} {o : Option Nat}
    (hn : ∀ x ∈ xs, stop x.2 = false) (h : unquoteLoop i stop crash xs st = .ok (st', o)) : st'.seen = st.seen ∧ o = none := by
  induction xs generalizing st with
  | nil =>
    unfold unquoteLoop at h
    split at h
    · cases h
    · cases h; exact ⟨rfl, rfl⟩
  | cons x xs ih =>
    rcases x with ⟨n, c⟩
    have := hn (n, c) (by simp)
    rw [unquoteLoop, if_neg (by rw [this]; decide)] at h
    have := ih (fun x hx => hn x (by simp [hx])) h
    exact this

/-- A text without stop characters is copied. -/
theorem takeUntilUnquote_copies {stop : Char → Bool} {b : Block} {o : Option (Span × Span)} (h : i.At P t)
    (h0 : stop (Char.ofNat 0) = false) (hn : ∀ x ∈ t, stop x.1 = false) (he : takeUntilUnquote i stop = .ok (b, o)) :
    i.toNewBlock = .ok b := by
  unfold takeUntilUnquote at he
  obtain ⟨⟨st, found⟩, e1, he⟩ := Res.bind_eq_ok.mp he
  have hx : ∀ x ∈ Span.withIndices 0 i.chars.items, stop x.2 = false := by
    rw [h.chars]
    simp only [Span.withIndices_eq 0 h.ascii]
    intro x hx
    have : x.2 ∈ textOf t := by
      have := List.mem_map_of_mem (f := Prod.snd) hx
      rwa [indexed_snd] at this
    obtain ⟨y, hy, hxy⟩ := mem_textOf.mp this
    rw [← hxy]; exact hn y hy
  obtain ⟨s1, rfl⟩ := unquoteLoop_seen hx e1
  simp only [h0] at he
  have s1 : st.seen = false := s1
  simp only [Bool.false_eq_true, if_false, ok_bind, s1, Bool.not_false, if_true] at he
  obtain ⟨b', e2, e3⟩ := Res.bind_eq_ok.mp he
  cases e3
  exact e2

/-- A rule line is read as such, however its end was found.  Either the line is in one piece, or it has no dollar signs and no
command, and the dependencies begin in the first piece. -/
theorem parseTargetLine_found (fs : Fs) {L L2 : Block} {i rest : Span} {line ts after ds tt dt : List LChar} {double : Bool}
    {command : Option (List LChar)} {st : St} {vs us : List Str} {des : List Expr}
    (m1 : makefileLine i .gnu false = .ok (.done rest L2)) (m3 : LineBlock L line L2)
    (hm : Block.Mono L2 ∨ (command = none ∧ Free '$' ts ∧ Free '$' ds ∧ ds ≠ [] ∧
      Block.Wrapped (line.length - ds.length) L2))
    (hrule : RuleText line ts double after ds command)
    (hT : TargetsExpand st.env ts tt vs) (hvar : ¬ VarLike (after.dropWhile lblank)) (hst : st.WF)
    (hdr : Reads ds (.ok des)) (hde : Expands st.env des dt us) (hdt : FileNames dt)
    {recipe : List (List Expr)} (hcr : CommandReads command recipe) :
    ∃ N targets deps a, Texts (wordsOf tt) targets ∧ Texts (wordsOf dt) deps ∧ FirstCommand recipe a ∧
      ∀ n, N ≤ n → parseTargetLine (recF fs n) i st =
        .ok (.done rest (.newRule targets deps double a), st.interned (vs ++ us)) := by
  have hat2 : L2.span.At L2 line := m3.at
  -- the semicolon
  have hsplit : ∃ cs line' postSemi b, textOf cs = (if double then "::".toList else ":".toList) ∧
      (∀ x ∈ ds, x.1 ∉ [':', '=', ';', '#', '\\']) ∧ line' = ts ++ (cs ++ ds) ∧ (command = none → line = line') ∧ CommandAt command postSemi ∧
      ¬ VarLike ((afterText ds command).dropWhile lblank) ∧ Buf line' b ∧
      (Block.Mono L2 → Block.Mono b) ∧
      (command = none → ∀ k, k < line.length → Block.Wrapped k L2 → Block.Wrapped k b) ∧
      (do
        match ← takeUntilUnquote L2.span (fun c => c == ';' || c == '#') with
        | (pre, some (stopChar, post)) => do
          let c ← Nom.firstChar stopChar
          if c = some '#' then return (pre, none)
          else do
            let b ← post.toNewBlock
            return (pre, some b)
        | (pre, none) => return (pre, none) : Res (Block × Option Block)) = .ok (b, postSemi) := by
    have good : ∀ {cs : List LChar}, textOf cs = (if double then "::".toList else ":".toList) →
        (∀ x ∈ ds, x.1 ∉ [':', '=', ';', '#', '\\']) → ∀ x ∈ ts ++ (cs ++ ds), x.1 ∉ [';', '#', '\\'] := by
      intro cs hc hd x hx
      rcases List.mem_append.mp hx with hx | hx
      · exact targets_chars hT x hx
      rcases List.mem_append.mp hx with hx | hx
      · have : x.1 ∈ textOf cs := mem_textOf.mpr ⟨x, hx, rfl⟩
        rw [hc] at this
        have : x.1 = ':' := by cases double <;> simpa using this
        rw [this]; decide
      · have := hd x hx
        simp only [List.mem_cons, List.not_mem_nil, or_false, not_or] at this ⊢
        exact this.2.2
    have conv : ∀ {t : List LChar}, (∀ x ∈ t, x.1 ∉ [';', '#', '\\']) → Free '\\' t ∧
        ∀ x ∈ t, (fun c => c == ';' || c == '#') x.1 = false := by
      intro t hg
      refine ⟨fun x hx he => hg x hx (by rw [he]; simp), fun x hx => ?_⟩
      have := hg x hx
      simp only [List.mem_cons, List.not_mem_nil, or_false, not_or] at this
      simp [this.1, this.2.1]
    cases hrule with
    | @plain _ cs _ _ hc hd =>
      obtain ⟨g1, g2⟩ := conv (good hc hd)
      obtain ⟨b, e1, e2⟩ := takeUntilUnquote_miss (fun c => c == ';' || c == '#') (by decide) (by decide) hat2 g1 g2
      refine ⟨cs, _, none, b, hc, hd, rfl, fun _ => rfl, .none, hvar, e2.buf, fun hm => e2.mono hm, ?_, ?_⟩
      · intro _ k hk hl
        refine hl.copy ?_ m3.wf m3.solid (takeUntilUnquote_copies hat2 (by decide) g2 e1)
        have := hat2.length
        have e : L2.span.length = L2.len := rfl
        omega
      · rw [e1]; rfl
    | @command _ cs _ cmd _ l hc hd =>
      obtain ⟨g1, g2⟩ := conv (good hc hd)
      have hat2' : L2.span.At L2 ((ts ++ (cs ++ ds)) ++ (';', l) :: cmd) := by simpa using hat2
      obtain ⟨b, sc, post, e1, e2, e3, e4⟩ := takeUntilUnquote_hit (fun c => c == ';' || c == '#') (by decide) (by decide)
        hat2' g1 g2 (by simp)
      obtain ⟨pb, k1, k2⟩ := e4.part
      refine ⟨cs, _, some pb, b, hc, hd, rfl, by simp, .some k2.buf ?_, ?_, e2.buf, fun hm => e2.mono hm, by simp, ?_⟩
      · rcases hm with hm | hm
        · exact k2.mono hm
        · cases hm.1
      · intro hv
        refine hvar (hv.congr ?_)
        rw [textOf_dropBlank, textOf_dropBlank]
        simp [afterText]
      · rw [e1]
        simp only [ok_bind, Nom.firstChar_at e3, k1]
        rfl
  obtain ⟨cs, line', postSemi, b, hc, hd, rfl, hline, hcommand, hvar', hb, hbm, hbw, hsemi⟩ := hsplit
  have hhead : ∀ c ∈ [':', '=', ';', '#', '\\'], (textOf ds).head? ≠ some c := by
    intro c hc hh
    cases ds with
    | nil => cases hh
    | cons y ds =>
      simp only [textOf_cons, List.head?_cons, Option.some.injEq] at hh
      exact hd y List.mem_cons_self (by rw [hh]; exact hc)
  -- the targets
  have hwrap : Block.Mono b ∨ (command = none ∧ Free '$' ts ∧ Free '$' ds ∧ ds ≠ [] ∧
      ∃ c k, b.content = [c] ∧ CRef.Front k c ∧ b.len ≤ k + ds.length) := by
    rcases hm with hm | ⟨h1, h2, h3, h4, h5⟩
    · exact .inl (hbm hm)
    · have hbl := hb.len
      rw [← hline h1] at hbl
      have hpos := List.length_pos_iff.mpr h4
      have hlt : line.length - ds.length < line.length := by
        have := congrArg List.length (hline h1)
        simp only [List.length_append] at this
        omega
      obtain ⟨c, c1, c2⟩ := hbw h1 (line.length - ds.length) hlt h5
      exact .inr ⟨h1, h2, h3, h4, c, _, c1, c2, by omega⟩
  have htr : TargetsReadable b ts ds b.span := hwrap.imp id fun ⟨_, h2, _, _, c, k, h5, h6, h7⟩ =>
    ⟨h2, ⟨rfl, by simp [Block.span]⟩, c, k, h5, h6, by omega⟩
  obtain ⟨N, r, m, reason, aft, ln, at', lt, w1, w2, w0, ⟨w3, w4, w5, w6, w8, w7⟩⟩ :=
    wordLoop_targets fs hT hc (hhead _ (by decide)) (hhead _ (by decide)) (hhead _ (by decide)) postSemi hst rfl
      (gap := []) (lineNext := b.span) (by intro x hx; cases hx) hb.at htr
  have har : AfterReadable b ds lt command ln := by
    rcases hwrap with h | ⟨h1, _, h3, h4, h5⟩
    · exact .inl h
    rcases w8 with h | h
    · exact .inl h
    · exact .inr ⟨h1, h3, h4, w0, h, h5⟩
  obtain ⟨l, cs', rfl, hcs'⟩ := colons_split hc
  -- the budget is chosen first: the buffer does not depend on it
  obtain ⟨b0, mwt0, extra0, x1, x2, x3, x4⟩ := w7 N (b.len + 2) Block.empty [] (Nat.le_refl _) (by
    rw [hb.len]; simp; omega) Buf.empty
  have hsp : spaced [] tt = tt := by simp [spaced]
  rw [hsp] at x2
  obtain ⟨M, targets, deps, a, f1, f2, f3, f4⟩ := finishRule_at fs (rest := rest) har hb.solid x2 (targets_fileNames hT) x3 w3 w4 w5 w6
    hcs' (fun x hx he => hd x hx (by rw [he]; simp)) hcommand hvar' (hst.interned vs) hdr
    (by rw [hst.env_interned]; exact hde) hdt hcr
  refine ⟨max N M, targets, deps, a, f1, f2, f3, fun n hn => ?_⟩
  have hloop := (wordLoop_le (recF_le fs (show N ≤ n by omega)) (b.len + 2) r m reason Block.empty postSemi st).ok x1
  unfold parseTargetLine
  refine Res.bind_eq_ok.mpr ⟨_, m1, ?_⟩
  refine Res.bind_eq_ok.mpr ⟨_, hsemi, ?_⟩
  refine Res.bind_eq_ok.mpr ⟨_, w1, ?_⟩
  have hreason : reason ≠ .eol ∧ reason ≠ .colon ∧ reason ≠ .dcolon := by
    rcases w2 with h | h <;> rw [h] <;> decide
  have hfin : (do
      let (res, st) ← wordLoop (recF fs n) (b.len + 2) r m reason Block.empty postSemi st
      match res with
      | .err e => return (.err e, st)
      | .noAction => return (.done rest .noAction, st)
      | .finished preColon afterColon lineNext postSemi mwt =>
        if mwt = .eol then do
          match ← whitespace preColon.span with
          | .err _ => .panic .unwrap
          | .done afterSpace _ =>
            if afterSpace.length = 0 then return (.done rest .noAction, st)
            else return (.err (.failure (.custom .missingSeparator)), st)
        else do
          let afterColon ← runwrap afterColon
          finishRule (recF fs n) rest preColon afterColon lineNext postSemi st : Res (IRes TargetAction × St)) =
      .ok (.done rest (.newRule targets deps double a), st.interned (vs ++ us)) := by
    rw [hloop]
    simp only [ok_bind, if_neg x4, runwrap]
    rw [f4 n (by omega), St.interned_append]
  rcases w2 with h | h <;> subst h <;> exact hfin

/-- A rule line is read as such.  Either the line is in one piece, or it has no dollar signs and no command, and the
dependencies begin in the first piece. -/
theorem parseTargetLine_at (fs : Fs) {L : Block} {line ts after ds tt dt : List LChar} {double : Bool}
    {command : Option (List LChar)} {st : St} {vs us : List Str} {des : List Expr}
    (hm : (L.content.length ≤ 1 ∧ Block.Mono L) ∨ (command = none ∧ Free '$' ts ∧ Free '$' ds ∧ ds ≠ [] ∧
      ∃ k, Block.Lined k L ∧ line.length ≤ k + ds.length))
    (h : L.span.At L line) (hnl : Free '\n' line) (hcom : Free '#' line)
    (hev : trailingSlashes (textOf line) % 2 = 0) (hrule : RuleText line ts double after ds command)
    (hT : TargetsExpand st.env ts tt vs) (hvar : ¬ VarLike (after.dropWhile lblank)) (hst : st.WF)
    (hdr : Reads ds (.ok des)) (hde : Expands st.env des dt us) (hdt : FileNames dt)
    {recipe : List (List Expr)} (hcr : CommandReads command recipe) :
    ∃ N rest targets deps a, Texts (wordsOf tt) targets ∧ Texts (wordsOf dt) deps ∧ FirstCommand recipe a ∧
      ∀ n, N ≤ n → parseTargetLine (recF fs n) L.span st =
        .ok (.done rest (.newRule targets deps double a), st.interned (vs ++ us)) := by
  -- the line once more
  obtain ⟨rest, L2, m1, _, m3, _⟩ := makefileLine_one (strip := false) h (grabSpec_eof hcom hnl) hev
  have hm' : Block.Mono L2 ∨ (command = none ∧ Free '$' ts ∧ Free '$' ds ∧ ds ≠ [] ∧
      Block.Wrapped (line.length - ds.length) L2) := by
    rcases hm with hm | ⟨h1, h2, h3, h4, k, h5, h6⟩
    · exact .inl (m3.mono hm.1 hm.2)
    · obtain ⟨v, v1, v2⟩ := makefileLine_wraps h hcom hnl hev m1
      have h5' : Block.Lined (line.length - ds.length) L := ⟨h5.wf, h5.mono, h5.solid, by
        obtain ⟨c, cs, g1, g2⟩ := h5.head
        exact ⟨c, cs, g1, by omega⟩⟩
      exact .inr ⟨h1, h2, h3, h4, (h5'.copy v1).wrap v2⟩
  obtain ⟨N, targets, deps, a, f1, f2, f3, f4⟩ := parseTargetLine_found fs m1 m3 hm' hrule hT hvar hst hdr hde hdt hcr
  exact ⟨N, rest, targets, deps, a, f1, f2, f3, f4⟩

theorem RuleText.ne_nil {line ts after ds : List LChar} {double : Bool} {command : Option (List LChar)}
    (h : RuleText line ts double after ds command) : line ≠ [] := by
  have : ∀ {cs : List LChar} {double : Bool}, textOf cs = (if double then "::".toList else ":".toList) → cs ≠ [] := by
    rintro _ double hc rfl
    cases double <;> cases hc
  cases h with
  | plain hc _ => simp [this hc]
  | command hc _ => simp

/-- What happens to a line that `parse_target_line` accepts. -/
theorem parseLine_newRule_of (fs : Fs) {n : Nat} {line : List LChar} {p : PState} {st st1 : St} {b : Block} {j rest' : Span}
    {act : TargetAction} (h : i.At P t)
    (hf : parseCommentFollowingWhitespace i = .ok (.err (.error .code))) (hd : p.currentDefine = none) (ha : p.ignoring = false)
    (hc : isAscii st.commandChar = true) (hr : p.currentRule = none ∨ (textOf t).head? ≠ some st.commandChar)
    (e1 : makefileLine i .gnu true = .ok (.done j b)) (hat : b.span.At b line) (hne : line ≠ [])
    (hdrop : line.dropWhile lblank = line) (h4 : (textOf line).head? ≠ some st.commandChar) (h5 : ¬ CondLike line)
    (h6 : ¬ VarLike line) (h7 : ¬ DirectiveLike line)
    (f4 : parseTargetLine (recF fs n) b.span st = .ok (.done rest' act, st1)) :
    parseLine fs (recF fs n) p st i =
      (p.closeRule st1).bind fun q => (handleTargetAction q.1 act).bind fun p' => .ok (.done j (), p', q.2) := by
  have hlen : b.len ≠ 0 := by
    have := hat.length
    have e : b.span.length = b.len := rfl
    rw [← e, this]
    simpa using hne
  rw [parseLine_collapsed_of fs _ h hf hd hc hr]
  obtain ⟨k, hv⟩ := parseVariableLine_none (recF fs n) st hat (by rw [hdrop]; exact h6)
  unfold parseCollapsed
  simp only [e1, ok_bind, if_neg hlen, parseConditionalLine_none hat (by rw [hdrop]; exact h5),
    if_neg (show ¬ p.ignoring = true by rw [ha]; decide)]
  unfold parseStatement
  simp only [hv, ok_bind, parseDirectiveLine_none hat h7, Nom.firstChar_at hat, if_neg h4, f4]
  rfl

theorem parseLine_newRule (fs : Fs) {n : Nat} {line : List LChar} {p : PState} {st st1 : St} {b : Block} {j rest' : Span}
    {act : TargetAction} (h : i.At P t) (hf : Free '#' t) (hd : p.currentDefine = none) (ha : p.ignoring = false)
    (hc : isAscii st.commandChar = true) (hr : p.currentRule = none ∨ (textOf t).head? ≠ some st.commandChar)
    (e1 : makefileLine i .gnu true = .ok (.done j b)) (hat : b.span.At b line) (hne : line ≠ [])
    (hdrop : line.dropWhile lblank = line) (h4 : (textOf line).head? ≠ some st.commandChar) (h5 : ¬ CondLike line)
    (h6 : ¬ VarLike line) (h7 : ¬ DirectiveLike line)
    (f4 : parseTargetLine (recF fs n) b.span st = .ok (.done rest' act, st1)) :
    parseLine fs (recF fs n) p st i =
      (p.closeRule st1).bind fun q => (handleTargetAction q.1 act).bind fun p' => .ok (.done j (), p', q.2) :=
  parseLine_newRule_of fs h (comment_none h (free_dropWhile hf)) hd ha hc hr e1 hat hne hdrop h4 h5 h6 h7 f4

end Hastur
