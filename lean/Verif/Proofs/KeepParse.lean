import Verif.Proofs.Keep
/-
The parsers that do not touch the engine yield data of the world their input is from.
-/
namespace Hastur

open Res

variable {W : World}

/-- What the parsers need of a world: the separators they insert, and that the location of a dollar sign they found is
that of a dollar sign. -/
structure World.Closed (W : World) : Prop where
  space : W.letter (' ', .synthetic)
  newline : W.letter ('\n', .synthetic)
  semicolon : W.letter (';', .synthetic)
  dollar : ∀ {s r q r' d : Span} {loc : Location}, s.In W → Nom.takeUntil ['$'] s = .ok (.done r q) →
    Nom.tag ['$'] r = .ok (.done r' d) → d.location = .ok (some loc) → W.letter ('$', loc)

theorem CRef.space_in (h : W.Closed) : CRef.In W CRef.space :=
  ⟨by decide, by simpa [Node.In, LStr.synthetic, LStr.ltext, locate] using h.space⟩
theorem CRef.newline_in (h : W.Closed) : CRef.In W CRef.newline :=
  ⟨by decide, by simpa [Node.In, LStr.synthetic, LStr.ltext, locate] using h.newline⟩
theorem CRef.semicolon_in (h : W.Closed) : CRef.In W CRef.semicolon :=
  ⟨by decide, by simpa [Node.In, LStr.synthetic, LStr.ltext, locate] using h.semicolon⟩

variable {i : Span}

/-! ### Lines -/

theorem grabLine_in (h : i.In W) : PIn W (fun x => Span.In W x.1) (grabLine i) := by
  unfold grabLine
  refine PIn.orElse (PIn.mapP (Nom.takeUntil_in h _) fun _ ha => ha) ?_
  refine PIn.orElse (PIn.andThen (Nom.takeUntil_in h _) fun r l hr hl => ?_) ?_
  · exact PIn.mapP (Nom.tag_in hr _) fun _ _ => hl
  refine PIn.orElse (PIn.andThen (Nom.takeUntil_in h _) fun r l hr hl => ?_) ?_
  · exact PIn.mapP (Nom.tag_in hr _) fun _ _ => hl
  exact PIn.mapP (Nom.rest_in h) fun _ ha => ha

theorem whitespace_in (h : i.In W) : PIn W (Span.In W) (whitespace i) := Nom.takeTill_in h _

theorem token_in (h : i.In W) : PIn W (Span.In W) (token i) := by
  unfold token
  refine PIn.andThen (whitespace_in h) fun i _ h _ => ?_
  refine PIn.andThen (Nom.takeWhile_in h _) fun i t h ht => ?_
  exact PIn.andThen (whitespace_in h) fun i _ h _ => PIn.done h ht

theorem unquoteLoop_in (h : i.In W) (stop : Char → Bool) (crash : Bool) (cs : List (Nat × Char)) :
    ∀ st : UnquoteState, Block.In W st.tr → (∀ s, st.stopChar = some s → Span.In W s) →
    Post (fun x => Block.In W x.1.tr ∧ ∀ s, x.1.stopChar = some s → Span.In W s) (unquoteLoop i stop crash cs st) := by
  induction cs with
  | nil =>
    intro st h1 h2
    unfold unquoteLoop
    split
    · exact Post.panic _
    · exact Post.ok ⟨h1, h2⟩
  | cons x cs ih =>
    obtain ⟨idx, ch⟩ := x
    intro st h1 h2
    unfold unquoteLoop
    split
    · refine Post.bind (Span.slice_in h _ _) fun sc hsc => ?_
      dsimp only
      split
      · refine Post.bind_any fun e => ?_
        refine Post.bind (Span.slice_in h _ _) fun p hp => ?_
        refine Post.bind (Block.pushAll_in h1 hp) fun tr htr => ?_
        refine ih _ htr ?_
        rintro _ ⟨⟩; exact hsc
      · refine Post.bind (Span.slice_in h _ _) fun p hp => ?_
        refine Post.bind (Block.pushAll_in h1 hp) fun tr htr => ?_
        refine Post.ok ⟨htr, ?_⟩
        rintro _ ⟨⟩; exact hsc
    · exact ih _ h1 h2

/-- What `takeUntilUnquote` yields. -/
def UnquoteIn (W : World) (x : Block × Option (Span × Span)) : Prop :=
  Block.In W x.1 ∧ ∀ s, x.2 = some s → Span.In W s.1 ∧ Span.In W s.2

theorem takeUntilUnquote_in (h : i.In W) (stop : Char → Bool) : Post (UnquoteIn W) (takeUntilUnquote i stop) := by
  unfold takeUntilUnquote
  refine Post.bind (unquoteLoop_in h stop _ _ _ ⟨(Block.in_iff.mp h).1, trivial⟩ (by simp)) fun x hx => ?_
  obtain ⟨st, found⟩ := x
  obtain ⟨h1, h2⟩ := hx
  dsimp only at h1 h2 ⊢
  refine Post.bind (Q := fun x : UnquoteState × Option Nat =>
      Block.In W x.1.tr ∧ ∀ s, x.1.stopChar = some s → Span.In W s) ?_ fun x hx => ?_
  · split
    · exact Post.ok ⟨h1, h2⟩
    · split
      · refine Post.bind (Span.slice_in h _ _) fun p hp => ?_
        refine Post.bind (Block.pushAll_in h1 hp) fun tr htr => ?_
        split
        · exact Post.ok ⟨htr, h2⟩
        · refine Post.bind_any fun k => ?_
          exact Post.ok ⟨htr, h2⟩
      · exact Post.ok ⟨h1, h2⟩
  · obtain ⟨st, found⟩ := x
    obtain ⟨h1, h2⟩ := hx
    dsimp only at h1 h2 ⊢
    split
    · refine Post.bind (Q := Span.In W) ?_ fun sc hsc => ?_
      · split
        · rename_i s hs; exact Post.ok (h2 _ hs)
        · exact Span.sliceFrom_in h _
      · refine Post.bind (Block.simplify_in h1) fun tr htr => ?_
        refine Post.bind (Span.sliceFrom_in h _) fun p hp => ?_
        refine Post.ok ⟨htr, ?_⟩
        rintro _ ⟨⟩; exact ⟨hsc, hp⟩
    · split
      · refine Post.bind (Span.toNewBlock_in h) fun b hb => ?_
        exact Post.ok ⟨hb, by simp⟩
      · refine Post.bind (Span.sliceFrom_in h _) fun p hp => ?_
        refine Post.bind (Block.pushAll_in h1 hp) fun tr htr => ?_
        refine Post.bind (Block.simplify_in htr) fun tr htr => ?_
        exact Post.ok ⟨htr, by simp⟩

theorem cleanLineEnd_in (h : i.In W) (mode : Compliance) (n : Nat) : Post (Span.In W) (cleanLineEnd mode i n) := by
  unfold cleanLineEnd
  split
  · split
    · exact Post.bind_any fun _ => Post.ok h
    · split
      · exact Span.slice_in h _ _
      · exact Post.bind_any fun _ => Post.ok h
  · exact Post.bind_any fun _ => Post.ok h

theorem newLines_in {cs : List CRef} (h : CRef.InList W cs) (hi : i.In W) :
    PIn W (Block.In W) (do let b ← Block.new [] cs; done i b) :=
  Post.bind (Block.new_in (by simp) h) fun _ hb => PIn.done hi hb

theorem lineLoop_in (hw : W.Closed) (mode : Compliance) (n : Nat) :
    ∀ (i : Span) (lines : List CRef) (strip addSpace : Bool) (reason : LineEnd), i.In W → CRef.InList W lines →
    PIn W (Block.In W) (lineLoop mode n i lines strip addSpace reason) := by
  induction n with
  | zero => intros; exact Post.fuel
  | succ n ih =>
    intro i lines strip addSpace reason h hl
    unfold lineLoop
    have hls : CRef.InList W (lines ++ [CRef.space]) := CRef.inList_append.mpr ⟨hl, CRef.space_in hw, trivial⟩
    have key : CRef.InList W (if reason ≠ .comment then
        if addSpace && !strip then (lines ++ [CRef.space], addSpace) else (lines, true)
      else (lines ++ [CRef.space], addSpace)).1 := by
      split
      · split
        · exact hls
        · exact hl
      · exact hls
    revert key
    generalize (if reason ≠ .comment then
        if addSpace && !strip then (lines ++ [CRef.space], addSpace) else (lines, true)
      else (lines ++ [CRef.space], addSpace)) = x
    obtain ⟨lines, addSpace⟩ := x
    intro key
    dsimp only at key ⊢
    refine Post.bind (PIn.andThen (whitespace_in h) fun i _ h _ => grabLine_in h) fun r hr => ?_
    split
    · exact newLines_in key h
    · exact Post.ok trivial
    · obtain ⟨h1, h2⟩ := hr
      refine Post.bind_any fun b => ?_
      split
      · refine Post.bind (Span.toContentReference_in h2) fun c hc => ?_
        exact newLines_in (CRef.inList_append.mpr ⟨key, hc, trivial⟩) h1
      · refine Post.bind (cleanLineEnd_in h2 _ _) fun l hl => ?_
        split
        · refine Post.bind (Span.toContentReference_in hl) fun c hc => ?_
          exact ih _ _ _ _ _ h1 (CRef.inList_append.mpr ⟨key, hc, trivial⟩)
        · exact ih _ _ _ _ _ h1 key

theorem makefileLine_in (hw : W.Closed) (h : i.In W) (mode : Compliance) (strip : Bool) :
    PIn W (Block.In W) (makefileLine i mode strip) := by
  unfold makefileLine
  refine PIn.andThen (Q := fun x => Span.In W x.1) ?_ fun i x h1 h2 => ?_
  · split
    · exact PIn.andThen (whitespace_in h) fun i _ h _ => grabLine_in h
    · exact grabLine_in h
  · obtain ⟨line, reason⟩ := x
    dsimp only at h2 ⊢
    refine Post.bind_any fun b => ?_
    split
    · refine Post.bind (Span.toContentReference_in h2) fun c hc => ?_
      exact newLines_in ⟨hc, trivial⟩ h1
    · refine Post.bind (cleanLineEnd_in h2 _ _) fun l hl => ?_
      split
      · refine Post.bind (Span.toContentReference_in hl) fun c hc => ?_
        exact lineLoop_in hw _ _ _ _ _ _ _ h1 ⟨hc, trivial⟩
      · exact lineLoop_in hw _ _ _ _ _ _ _ h1 trivial

theorem commentLoop_in (n : Nat) : ∀ (i line : Span) (reason : LineEnd), i.In W →
    PIn W (fun _ => True) (commentLoop n i line reason) := by
  induction n with
  | zero => intros; exact Post.fuel
  | succ n ih =>
    intro i line reason h
    unfold commentLoop
    refine Post.bind_any fun b => ?_
    split
    · refine PIn.andThen (Q := fun _ => True) (PIn.orElse (PIn.mapP (Nom.char_in h _) fun _ _ => trivial)
        (PIn.done h trivial)) fun i _ h _ => ?_
      refine PIn.andThen (grabLine_in h) fun i x h _ => ?_
      exact ih _ _ _ h
    · exact PIn.done h trivial

theorem parseComment_in (h : i.In W) : PIn W (fun _ => True) (parseComment i) := by
  unfold parseComment
  refine PIn.andThen (Nom.char_in h _) fun i _ h _ => ?_
  refine PIn.andThen (grabLine_in h) fun i x h _ => ?_
  exact commentLoop_in _ _ _ _ h

theorem parseCommentFollowingWhitespace_in (h : i.In W) : PIn W (fun _ => True) (parseCommentFollowingWhitespace i) :=
  PIn.andThen (whitespace_in h) fun _ _ h _ => parseComment_in h

theorem fileSeqLoop_in (stops : Str) (n : Nat) : ∀ (i : Span) (out : List Block), i.In W → (∀ b ∈ out, Block.In W b) →
    Post (fun bs => ∀ b ∈ bs, Block.In W b) (fileSeqLoop stops n i out) := by
  induction n with
  | zero => intros; exact Post.fuel
  | succ n ih =>
    intro i out h ho
    have app : ∀ b, Block.In W b → ∀ x ∈ out ++ [b], Block.In W x := by
      intro b hb x hx
      rcases List.mem_append.mp hx with hx | hx
      · exact ho x hx
      · rw [List.mem_singleton.mp hx]; exact hb
    unfold fileSeqLoop
    split
    · refine Post.bind (takeUntilUnquote_in h _) fun x hx => ?_
      split
      · obtain ⟨h1, h2⟩ := hx
        have h2 := h2 _ rfl
        split
        · refine Post.bind (Span.toNewBlock_in (Block.span_in h1)) fun b hb => ?_
          exact ih _ _ h2.2 (app b hb)
        · exact ih _ _ h2.2 ho
      · obtain ⟨h1, _⟩ := hx
        refine Post.bind (Span.sliceFrom_in h _) fun p hp => ?_
        split
        · refine Post.bind (Span.toNewBlock_in (Block.span_in h1)) fun b hb => ?_
          exact ih _ _ hp (app b hb)
        · exact ih _ _ hp ho
    · exact Post.ok ho

theorem parseFileSeq_in (stops : Str) (h : i.In W) : Post (fun bs => ∀ b ∈ bs, Block.In W b) (parseFileSeq stops i) := by
  unfold parseFileSeq
  refine Post.bind (whitespace_in h) fun r hr => ?_
  split
  · exact fileSeqLoop_in _ _ _ _ hr.1 (by simp)
  · exact Post.panic _

/-! ### Expressions -/

theorem Ast.In.locOk {a : Ast} (h : a.In W) : W.Loc a.location := by
  cases a <;> first
    | exact h
    | exact h.1
    | exact h.2.1
    | exact .inr ⟨_, h.1⟩

theorem Ast.mkEmpty_in : Ast.In W Ast.mkEmpty := .inl rfl

theorem Ast.collapsingConcat_in {l : Location} {as : List Ast} (hl : W.Loc l) (h : ∀ a ∈ as, Ast.In W a) :
    Ast.In W (Ast.collapsingConcat l as) := by
  have key : ∀ a ∈ as.filter (fun a => !a.isEmpty), Ast.In W a := fun a ha => h a ((List.mem_filter.mp ha).1)
  unfold Ast.collapsingConcat
  split
  · rename_i a e
    exact key a (by rw [e]; simp)
  · exact ⟨hl, Ast.inList_iff.mpr key⟩

theorem functionArgument_in (h : i.In W) : PIn W (Span.In W) (functionArgument i) := by
  unfold functionArgument
  refine PIn.andThen (Nom.many0_in (fun i h => whitespace_in h) h) fun i _ h _ => ?_
  split
  · exact PIn.failOut _
  · exact Post.bind (Span.takeSplit_in h _) fun x hx => PIn.done hx.1 hx.2
  · split
    · exact Post.panic _
    · exact Post.bind (Span.takeSplit_in h _) fun x hx => PIn.done hx.1 hx.2

section functions

variable {parse : AstParser} {loc : Location} (hp : ∀ i : Span, i.In W → PIn W (Ast.In W) (parse i))
  (hl : W.letter ('$', loc))
include hp hl

theorem fnEval_in (h : i.In W) : PIn W (Ast.In W) (fnEval parse loc i) :=
  PIn.andThen (hp i h) fun _ _ h ha => PIn.done h ⟨hl, ha⟩

theorem fnStrip_in (h : i.In W) : PIn W (Ast.In W) (fnStrip parse loc i) := by
  unfold fnStrip
  refine PIn.andThen (functionArgument_in h) fun i arg h harg => ?_
  split
  · exact PIn.failOut _
  · exact PIn.andThen (hp _ harg) fun _ _ _ ha => PIn.done h ⟨hl, ha⟩

theorem fnWords_in (h : i.In W) : PIn W (Ast.In W) (fnWords parse loc i) := by
  unfold fnWords
  refine PIn.andThen (functionArgument_in h) fun i arg h harg => ?_
  split
  · exact PIn.failOut _
  · exact PIn.andThen (hp _ harg) fun _ _ _ ha => PIn.done h ⟨hl, ha⟩

theorem fnWord_in (h : i.In W) : PIn W (Ast.In W) (fnWord parse loc i) := by
  unfold fnWord
  refine PIn.andThen (functionArgument_in h) fun i arg h harg => ?_
  refine Post.bind (Nom.char_in h _) fun r hr => ?_
  split
  · exact PIn.failOut _
  · refine PIn.andThen (hp _ harg) fun _ a _ ha => ?_
    refine PIn.andThen (functionArgument_in hr.1) fun i arg h harg => ?_
    split
    · exact PIn.failOut _
    · exact PIn.andThen (hp _ harg) fun _ _ _ hb => PIn.done h ⟨hl, ha, hb⟩

omit hp hl in
theorem funcEntry_in {name : Str} {f : Span → PRes Ast} (hf : ∀ i : Span, i.In W → PIn W (Ast.In W) (f i))
    (h : i.In W) : PIn W (Ast.In W) (funcEntry name f i) := by
  unfold funcEntry
  refine PIn.andThen (Nom.tag_in h _) fun i _ h _ => ?_
  refine PIn.andThen (Nom.many1_in (fun i h => whitespace_in h) h) fun i _ h _ => ?_
  exact hf i h

theorem functionCall_in (h : i.In W) : PIn W (Ast.In W) (functionCall parse loc i) :=
  PIn.orElse (funcEntry_in (fun _ h => fnEval_in hp hl h) h) <|
  PIn.orElse (funcEntry_in (fun _ h => fnStrip_in hp hl h) h) <|
  PIn.orElse (funcEntry_in (fun _ h => fnWords_in hp hl h) h) <|
  PIn.orElse (funcEntry_in (fun _ h => fnWord_in hp hl h) h) <|
  PIn.failOut _

theorem advancedVar_in (o c : Char) (h : i.In W) : PIn W (Ast.In W) (advancedVar parse loc o c i) := by
  unfold advancedVar
  split
  · split
    · exact Post.panic _
    · exact PIn.failOut _
  · refine Post.bind (Span.takeSplit_in h _) fun x hx => ?_
    obtain ⟨r, name⟩ := x
    obtain ⟨h1, h2⟩ := hx
    refine Post.bind_any fun n => ?_
    have h3 : Span.In W (name.sliceTo n) := h2
    refine Post.bind (functionCall_in hp hl h3) fun x hx => ?_
    split
    · split
      · exact PIn.andThen (hp _ h3) fun _ _ _ ha => PIn.done h1 ⟨hl, ha⟩
      · exact PIn.err _
    · exact Post.ok hx

omit hp hl in
theorem firstConstant_in (h : i.In W) : Post (Ast.In W) (firstConstant i) := by
  unfold firstConstant
  refine Post.bind (Span.firstSegment_in h) fun o ho => ?_
  exact Post.bind (runwrap_post ho) fun t ht => Post.ok ht.constant

theorem parseVarRef_in (h : i.In W) : PIn W (Ast.In W) (parseVarRef parse loc i) := by
  unfold parseVarRef
  refine PIn.orElse (PIn.mapP (Nom.eof_in h) fun _ _ => ?_) ?_
  · exact ⟨rfl, .inr ⟨_, hl⟩, by simpa [LStr.ltext, locate] using hl⟩
  refine PIn.orElse (PIn.andThen (Nom.tag_in h _) fun i l h hl => ?_) ?_
  · exact Post.bind (firstConstant_in hl) fun a ha => PIn.done h ha
  refine PIn.orElse (PIn.andThen (Nom.char_in h _) fun i l h _ => advancedVar_in hp hl _ _ h) ?_
  refine PIn.orElse (PIn.andThen (Nom.char_in h _) fun i l h _ => advancedVar_in hp hl _ _ h) ?_
  refine PIn.andThen (Nom.take_in h _) fun i l h hs => ?_
  exact Post.bind (firstConstant_in hs) fun a ha => PIn.done h ⟨hl, ha⟩

omit hl in
theorem parseAstLoop_in (hw : W.Closed) (n : Nat) : ∀ (i : Span) (acc : List Ast), i.In W → (∀ a ∈ acc, Ast.In W a) →
    PIn W (fun as => ∀ a ∈ as, Ast.In W a) (parseAstLoop parse n i acc) := by
  induction n with
  | zero => intros; exact Post.fuel
  | succ n ih =>
    intro i acc h ha
    unfold parseAstLoop
    split
    · refine PIn.andThen (Q := fun x : Span × Option Location =>
          Span.In W x.1 ∧ ∀ l, x.2 = some l → W.letter ('$', l)) (PIn.orElse ?_ ?_) fun i x h1 h2 => ?_
      · intro res e
        change Res.bind _ _ = _ at e
        obtain ⟨x, e1, e⟩ := bind_eq_ok.mp e
        have hx := Nom.takeUntil_in h ['$'] x e1
        cases x with
        | err k => cases e; trivial
        | done r start =>
          dsimp only at e
          change Res.bind _ _ = _ at e
          obtain ⟨y, e2, e⟩ := bind_eq_ok.mp e
          have hy := Nom.tag_in hx.1 ['$'] y e2
          cases y with
          | err k => cases e; trivial
          | done r' dollar =>
            dsimp only at e
            obtain ⟨o, e3, e⟩ := bind_eq_ok.mp e
            obtain ⟨loc, e4, e⟩ := bind_eq_ok.mp e
            cases e
            refine ⟨hy.1, hx.2, ?_⟩
            rintro _ ⟨⟩
            cases o with
            | none => cases e4
            | some l =>
              cases e4
              exact hw.dollar h e1 e2 e3
      · exact PIn.mapP (Nom.rest_in h) fun a ha => ⟨ha, by simp⟩
      · obtain ⟨u, dollar⟩ := x
        obtain ⟨h2, h3⟩ := h2
        dsimp only at h2 h3 ⊢
        refine Post.bind (Span.allSegments_in h2) fun segs hs => ?_
        have hacc : ∀ a ∈ acc ++ segs.map Ast.mkConstant, Ast.In W a := by
          intro a h
          rcases List.mem_append.mp h with h | h
          · exact ha a h
          · obtain ⟨t, ht, rfl⟩ := List.mem_map.mp h
            exact (hs t ht).constant
        cases dollar with
        | none => exact PIn.done h1 hacc
        | some loc =>
          refine PIn.andThen (parseVarRef_in hp (h3 _ rfl) h1) fun i a h hc => ?_
          refine ih _ _ h fun b hb => ?_
          rcases List.mem_append.mp hb with hb | hb
          · exact hacc b hb
          · rw [List.mem_singleton.mp hb]; exact hc
    · exact PIn.done h ha

end functions

theorem parseAstF_in (hw : W.Closed) (n : Nat) : ∀ i : Span, i.In W → PIn W (Ast.In W) (parseAstF n i) := by
  induction n with
  | zero => intros; exact Post.fuel
  | succ n ih =>
    intro i h
    unfold parseAstF
    refine Post.bind (Span.location_in h) fun o ho => ?_
    split
    · exact PIn.done h Ast.mkEmpty_in
    · exact PIn.mapP (parseAstLoop_in ih hw _ _ _ h (by simp)) fun as has =>
        Ast.collapsingConcat_in (ho _ rfl) has

theorem parseAst_in (hw : W.Closed) (h : i.In W) : PIn W (Ast.In W) (parseAst i) := parseAstF_in hw _ _ h

/-! ### Recipe lines -/

theorem grabCommandLine_in (c : Char) (h : i.In W) : PIn W (fun x => Span.In W x.1) (grabCommandLine c i) :=
  PIn.andThen (Nom.char_in h _) fun _ _ h _ => grabLine_in h

theorem parseBlock_in (hw : W.Closed) {b : Span} (hb : b.In W) (h : i.In W) :
    PIn W (Ast.In W) ((parseAst b).andThen fun _ ast => done i ast) :=
  PIn.andThen (parseAst_in hw hb) fun _ _ _ ha => PIn.done h ha

theorem recipeLoop_in (hw : W.Closed) (c : Char) (n : Nat) : ∀ (i : Span) (line : Block), i.In W → Block.In W line →
    PIn W (Ast.In W) (recipeLoop c n i line) := by
  induction n with
  | zero => intros; exact Post.fuel
  | succ n ih =>
    intro i line h hl
    unfold recipeLoop
    refine Post.bind_any fun b => ?_
    split
    · have hl' := Block.push_in hl (CRef.newline_in hw)
      dsimp only
      refine Post.bind (grabCommandLine_in c h) fun r hr => ?_
      split
      · obtain ⟨h1, h2⟩ := hr
        refine Post.bind (Span.toContentReference_in h2) fun c hc => ?_
        have hl'' := Block.push_in hl' hc
        split
        · exact parseBlock_in hw (Block.span_in hl'') h1
        · exact ih _ _ h1 hl''
      · exact parseBlock_in hw (Block.span_in hl') h
    · exact parseBlock_in hw (Block.span_in hl) h

theorem recipeLine_in (hw : W.Closed) (c : Char) (h : i.In W) : PIn W (Ast.In W) (recipeLine c i) := by
  unfold recipeLine
  refine PIn.andThen (grabCommandLine_in c h) fun i x h1 h2 => ?_
  obtain ⟨line, reason⟩ := x
  dsimp only at h2 ⊢
  split
  · exact parseBlock_in hw h2 h1
  · exact Post.bind (Span.toNewBlock_in h2) fun b hb => recipeLoop_in hw _ _ _ _ h1 hb

/-! ### Text functions -/

theorem matchToken_in (pre post : Str) (h : i.In W) : PIn W (Span.In W) (matchToken pre post i) := by
  unfold matchToken
  refine PIn.andThen (Nom.tag_in h _) fun i _ h _ => ?_
  refine PIn.andThen (Nom.recognize_in h (Nom.many1_in (fun i h => Nom.takeUntil_in h _) h)) fun i c h hc => ?_
  exact PIn.andThen (Nom.tag_in h _) fun i _ h _ => PIn.done h hc

theorem replaceToken_in (pre post : Str) {preR postR : Span} {output : Block} (h1 : preR.In W) (h2 : postR.In W)
    (ho : Block.In W output) (h : i.In W) : Post (Block.In W) (replaceToken pre post preR postR output i) := by
  unfold replaceToken
  split
  · exact Block.pushAll_in ho h
  · refine Post.bind (matchToken_in pre post h) fun r hr => ?_
    split
    · exact Block.pushAll_in ho h
    · split
      · exact Block.pushAll_in ho h
      · refine Post.bind (Block.pushAll_in ho h1) fun o ho => ?_
        refine Post.bind (Block.pushAll_in ho hr.2) fun o ho => ?_
        exact Block.pushAll_in ho h2

theorem replaceLoop_in (hw : W.Closed) (pre post : Str) {preR postR : Span} (h1 : preR.In W) (h2 : postR.In W) (n : Nat) :
    ∀ (first : Bool) (i : Span) (output : Block), i.In W → Block.In W output →
    Post (Block.In W) (replaceLoop pre post preR postR n first i output) := by
  induction n with
  | zero => intros; exact Post.fuel
  | succ n ih =>
    intro first i output h ho
    unfold replaceLoop
    split
    · refine Post.bind (token_in h) fun r hr => ?_
      split
      · exact Post.panic _
      · dsimp only
        refine Post.bind (replaceToken_in pre post h1 h2 ?_ hr.2) fun o ho => ih _ _ _ hr.1 ho
        split
        · exact ho
        · exact Block.push_in ho (CRef.space_in hw)
    · exact Post.ok ho

theorem doReplacement_in (hw : W.Closed) {sens : Sens} (hs : ∀ v ∈ sens, W.var v) (pre post : Str) {preR postR : Span}
    (h1 : preR.In W) (h2 : postR.In W) (h : i.In W) : Post (Block.In W) (doReplacement i sens pre post preR postR) :=
  Post.bind (replaceLoop_in hw pre post h1 h2 _ _ _ ⟨sens, []⟩ h ⟨hs, trivial⟩) fun _ hb => Block.simplify_in hb

theorem doSubref_in (hw : W.Closed) {sens : Sens} (hs : ∀ v ∈ sens, W.var v) {value key replacement : Block}
    (hv : Block.In W value) (hk : Block.In W key) (hr : Block.In W replacement) :
    Post (Block.In W) (doSubref sens value key replacement) := by
  unfold doSubref
  refine Post.bind (takeUntilUnquote_in (Block.span_in hk) _) fun x hx => ?_
  split
  · refine Post.bind_any fun pre => ?_
    refine Post.bind_any fun post => ?_
    refine Post.bind (takeUntilUnquote_in (Block.span_in hr) _) fun x hx => ?_
    split
    · exact doReplacement_in hw hs _ _ (Block.span_in hx.1) (hx.2 _ rfl).2 (Block.span_in hv)
    · exact doReplacement_in hw hs _ _ Span.empty_in (Block.span_in hx.1) (Block.span_in hv)
  · refine Post.bind_any fun post => ?_
    exact doReplacement_in hw hs _ _ Span.empty_in (Block.span_in hr) (Block.span_in hv)

theorem colonFind_in (h : i.In W) : PIn W (fun x => Span.In W x.1 ∧ Span.In W x.2) (colonFind i) := by
  unfold colonFind
  refine PIn.andThen (Nom.recognize_in h (Nom.many1_in (fun i h => Nom.takeUntilAndConsume_in h _) h)) fun i n h hn => ?_
  refine PIn.andThen (Nom.recognize_in h (Nom.many1_in (fun i h => Nom.takeUntilAndConsume_in h _) h)) fun i k h hk => ?_
  exact PIn.done h ⟨hn, hk⟩

/-! ### Variable lines -/

theorem parseAssignmentOperator_in (h : i.In W) : PIn W (fun x => Span.In W x.1) (parseAssignmentOperator i) := by
  unfold parseAssignmentOperator
  refine PIn.andThen (Nom.takeTill_in h _) fun i name h hn => ?_
  refine PIn.andThen (whitespace_in h) fun i _ h _ => ?_
  refine PIn.andThen (Q := fun _ => True) ?_ fun i _ h _ => ?_
  · unfold assignOperator
    repeat' refine PIn.orElse ?_ ?_
    all_goals exact PIn.mapP (Nom.tag_in h _) fun _ _ => trivial
  · exact PIn.andThen (whitespace_in h) fun i _ h _ => PIn.done h hn

theorem splitAssignment_in (hw : W.Closed) (h : i.In W) :
    PIn W (fun x => Ast.In W x.2.1 ∧ Span.In W x.2.2.1 ∧ Ast.In W x.2.2.2) (splitAssignment i) := by
  unfold splitAssignment
  refine PIn.andThen (parseAssignmentOperator_in h) fun i x h hn => ?_
  refine PIn.andThen (whitespace_in h) fun v _ hv _ => ?_
  refine PIn.andThen (parseAst_in hw hn) fun _ a _ ha => ?_
  exact PIn.andThen (parseAst_in hw hv) fun _ b hp hb => PIn.done hp ⟨ha, hv, hb⟩

theorem modifierKeyword_in (h : i.In W) : PIn W (fun _ => True) (modifierKeyword i) := by
  unfold modifierKeyword
  refine PIn.andThen (Q := fun _ => True) ?_ fun i _ h _ => ?_
  · repeat' refine PIn.orElse ?_ ?_
    all_goals exact PIn.mapP (Nom.tagNoCase_in h _) fun _ _ => trivial
  · exact PIn.andThen (whitespace_in h) fun i _ h _ => PIn.done h trivial

theorem grabDefineLine_in (h : i.In W) : PIn W (Span.In W) (grabDefineLine i) := by
  unfold grabDefineLine
  refine PIn.orElse (Nom.takeUntil_in h _) ?_
  refine PIn.orElse (Nom.recognize_in h (PIn.andThen (Nom.takeUntil_in h _) fun r _ hr _ => Nom.tag_in hr _)) ?_
  refine PIn.orElse (Nom.recognize_in h (PIn.andThen (Nom.takeUntil_in h _) fun r _ hr _ => Nom.tag_in hr _)) ?_
  exact Nom.rest_in h

theorem parseDefineLine_in (hw : W.Closed) (h : i.In W) :
    PIn W (fun l => Ast.In W l.content ∧ W.Loc l.location) (parseDefineLine i) := by
  unfold parseDefineLine
  refine PIn.andThen (grabDefineLine_in h) fun next l hn hl => ?_
  refine Post.bind (Span.location_in hl) fun o ho => ?_
  refine Post.bind (runwrap_post ho) fun loc hloc => ?_
  refine PIn.andThen (parseAst_in hw hl) fun _ a _ ha => ?_
  refine PIn.andThen (whitespace_in hl) fun i _ h _ => ?_
  refine PIn.andThen (Q := fun _ => True) ?_ fun i _ h _ => ?_
  · refine PIn.orElse (PIn.mapP (Nom.tag_in h _) fun _ _ => trivial) ?_
    refine PIn.orElse (PIn.mapP (Nom.tag_in h _) fun _ _ => trivial) ?_
    exact PIn.mapP (Nom.rest_in h) fun _ _ => trivial
  · refine PIn.andThen (Nom.takeWhile_in h _) fun i _ h _ => ?_
    split
    · exact PIn.failOut _
    · exact PIn.done hn ⟨ha, hloc⟩

/-! ### Conditionals and directives -/

/-- The expressions of a conditional. -/
def Conditional.In (W : World) : Conditional → Prop
  | .ifDef a => Ast.In W a
  | .ifNDef a => Ast.In W a
  | .ifEq a b => Ast.In W a ∧ Ast.In W b
  | .ifNEq a b => Ast.In W a ∧ Ast.In W b
  | .else_ _ => True
  | .endIf => True

theorem condKeyword_in (h : i.In W) : PIn W (fun _ => True) (condKeyword i) := by
  unfold condKeyword
  refine PIn.andThen (whitespace_in h) fun i _ h _ => ?_
  refine PIn.andThen (Q := fun _ => True) ?_ fun i _ h _ => ?_
  · repeat' refine PIn.orElse ?_ ?_
    all_goals exact PIn.mapP (Nom.tagNoCase_in h _) fun _ _ => trivial
  · exact PIn.andThen (whitespace_in h) fun i _ h _ => PIn.done h trivial

theorem takeTillTerminator_in (t : Char) (h : i.In W) : PIn W (Span.In W) (takeTillTerminator t i) := by
  unfold takeTillTerminator
  split
  · split
    · dsimp only
      refine Post.bind (Span.sliceFrom_in h _) fun l hl => ?_
      exact PIn.andThen (Nom.char_in hl _) fun i _ h' _ => PIn.done h' h
    · split
      · exact Post.panic _
      · exact PIn.errorOut _
  · refine PIn.andThen (Nom.takeTill_in h _) fun i r h hr => ?_
    exact PIn.andThen (Nom.char_in h _) fun i _ h' _ => PIn.done h' hr

theorem parseIfeq_in (hw : W.Closed) (h : i.In W) : PIn W (fun x => Ast.In W x.1 ∧ Ast.In W x.2) (parseIfeq i) := by
  unfold parseIfeq
  refine PIn.andThen (Q := fun _ => True) ?_ fun i t h _ => ?_
  · repeat' refine PIn.orElse ?_ ?_
    all_goals exact PIn.mapP (Nom.char_in h _) fun _ _ => trivial
  refine PIn.andThen (takeTillTerminator_in _ h) fun i a h ha => ?_
  refine PIn.andThen (parseAst_in hw ha) fun _ a _ ha => ?_
  refine PIn.andThen (whitespace_in h) fun i _ h _ => ?_
  refine PIn.andThen (Q := fun _ => True) ?_ fun i t h _ => ?_
  · split
    · exact PIn.done h trivial
    · repeat' refine PIn.orElse ?_ ?_
      all_goals exact PIn.mapP (Nom.char_in h _) fun _ _ => trivial
  refine PIn.andThen (takeTillTerminator_in _ h) fun i b h hb => ?_
  exact PIn.andThen (parseAst_in hw hb) fun _ b _ hb => PIn.done h ⟨ha, hb⟩

theorem parseCondF_in (hw : W.Closed) (n : Nat) : ∀ i : Span, i.In W → PIn W (Conditional.In W) (parseCondF n i) := by
  induction n with
  | zero => intros; exact Post.fuel
  | succ n ih =>
    intro i h
    unfold parseCondF
    refine PIn.andThen (condKeyword_in h) fun i t h _ => ?_
    cases t with
    | ifDef => exact PIn.mapP (PIn.returnError (parseAst_in hw h)) fun _ ha => ha
    | ifNDef => exact PIn.mapP (PIn.returnError (parseAst_in hw h)) fun _ ha => ha
    | ifEq => exact PIn.mapP (parseIfeq_in hw h) fun _ ha => ha
    | ifNEq => exact PIn.mapP (parseIfeq_in hw h) fun _ ha => ha
    | else_ =>
      refine PIn.andThen (whitespace_in h) fun i _ h _ => ?_
      split
      · refine PIn.andThen (PIn.returnError (ih _ h)) fun i c h _ => ?_
        split
        · exact PIn.failOut _
        · exact PIn.failOut _
        · exact PIn.done h trivial
      · exact PIn.done h trivial
    | endIf =>
      dsimp only
      split
      · exact PIn.failOut _
      · exact PIn.done h trivial

theorem parseConditionalLine_in (hw : W.Closed) (h : i.In W) : PIn W (Conditional.In W) (parseConditionalLine i) :=
  parseCondF_in hw _ _ h

/-- The expression of a directive. -/
def Directive.In (W : World) : Directive → Prop
  | .include_ a | .softInclude a | .export_ a | .unexport a | .vpath a | .load a | .softLoad a => Ast.In W a

theorem parseDirectiveLine_in (hw : W.Closed) (h : i.In W) : PIn W (Directive.In W) (parseDirectiveLine i) := by
  have key : ∀ (name : String) (f : Ast → Directive), (∀ a, Ast.In W a → Directive.In W (f a)) →
      PIn W (Directive.In W) ((Nom.tagNoCase name.toList i).andThen fun i _ => (parseAst i).mapP f) := fun name f hf =>
    PIn.andThen (Nom.tagNoCase_in h _) fun _ _ h _ => PIn.mapP (parseAst_in hw h) hf
  unfold parseDirectiveLine
  dsimp only
  repeat' refine PIn.orElse ?_ ?_
  all_goals exact key _ _ fun _ h => h

/-! ### Target lines -/

theorem nextMword_in (h : i.In W) : PIn W (fun x => Span.In W x.1) (nextMword i) := by
  unfold nextMword
  refine PIn.andThen (whitespace_in h) fun i _ h _ => ?_
  iterate 9 refine PIn.orElse (PIn.mapP (Nom.tag_in h _) fun _ hc => hc) ?_
  refine Post.bind_any fun x => ?_
  exact Post.bind (Span.takeSplit_in h _) fun y hy => PIn.done hy.1 hy.2

theorem colonLoop_in (n : Nat) : ∀ (i : Span) (content : Block), i.In W → Block.In W content →
    Post (fun x => Block.In W x.1 ∧ ∀ s, x.2 = some s → Span.In W s) (colonLoop n i content) := by
  induction n with
  | zero => intros; exact Post.fuel
  | succ n ih =>
    intro i content h hc
    unfold colonLoop
    refine Post.bind (takeUntilUnquote_in h _) fun x hx => ?_
    split
    · refine Post.bind (Block.pushAll_in hc (Block.span_in hx.1)) fun content hc => ?_
      refine Post.bind_any fun d => ?_
      split
      · refine Post.bind (Block.pushAll_in hc (hx.2 _ rfl).1) fun content hc => ?_
        exact ih _ _ (hx.2 _ rfl).2 hc
      · refine Post.ok ⟨hc, ?_⟩
        rintro _ ⟨⟩; exact (hx.2 _ rfl).2
    · refine Post.bind (Block.pushAll_in hc (Block.span_in hx.1)) fun content hc => ?_
      exact Post.ok ⟨hc, by simp⟩

theorem findNonDrivespecColon_in (h : i.In W) :
    Post (fun x => Block.In W x.1 ∧ ∀ s, x.2 = some s → Span.In W s) (findNonDrivespecColon i) :=
  colonLoop_in _ _ _ h Block.empty_in

theorem pushWord_in (hw : W.Closed) {buffer word : Block} (hb : Block.In W buffer) (h : Block.In W word) :
    Post (Block.In W) (pushWord buffer word) := by
  unfold pushWord
  refine Block.pushAll_in ?_ (Block.span_in h)
  split
  · exact Block.push_in hb (CRef.space_in hw)
  · exact hb

end Hastur
