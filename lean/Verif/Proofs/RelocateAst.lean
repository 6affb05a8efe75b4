import Verif.Proofs.RelocateSpan
/-
Every function of the model commutes with changing locations: expressions and the parsers of lines.
-/
namespace Hastur

open Res Span Nom

variable {g : Location → Location}

/-! ### Syntax trees -/

theorem Ast.mapLocs_eq : ∀ as : List Ast, Ast.mapLocs g as = as.map (Ast.mapLoc g)
  | [] => by simp [Ast.mapLocs]
  | a :: as => by simp [Ast.mapLocs, Ast.mapLocs_eq as]

theorem Ast.isEmpty_rl (a : Ast) : (rl g a).isEmpty = a.isEmpty := by
  show (Ast.mapLoc g a).isEmpty = _
  cases a <;> simp [Ast.mapLoc, Ast.isEmpty]

theorem Ast.location_rl (a : Ast) : (rl g a).location = g a.location := by
  show (Ast.mapLoc g a).location = _
  cases a <;> simp [Ast.mapLoc, Ast.location]

theorem Ast.mkEmpty_rl [Moves g] : rl g Ast.mkEmpty = Ast.mkEmpty := by
  show Ast.mapLoc g (.empty .synthetic) = _
  rw [Ast.mapLoc, Moves.synthetic (g := g)]
  rfl

theorem Ast.mkConstant_rl (s : LStr) : Ast.mkConstant (rl g s) = rl g (Ast.mkConstant s) := by
  show _ = Ast.mapLoc g (.constant _ _)
  rw [Ast.mapLoc]
  rfl

theorem Ast.concat_rl (l : Location) (as : List Ast) : Ast.concat (g l) (rl g as) = rl g (Ast.concat l as) := by
  show _ = Ast.mapLoc g (.concat _ _)
  rw [Ast.mapLoc, Ast.mapLocs_eq]
  rfl

theorem Ast.varRef_rl (l : Location) (a : Ast) : Ast.varRef (g l) (rl g a) = rl g (Ast.varRef l a) := by
  show _ = Ast.mapLoc g (.varRef _ _)
  rw [Ast.mapLoc]
  rfl

theorem Ast.eval_rl (l : Location) (a : Ast) : Ast.eval (g l) (rl g a) = rl g (Ast.eval l a) := by
  show _ = Ast.mapLoc g (.eval _ _)
  rw [Ast.mapLoc]
  rfl

theorem Ast.strip_rl (l : Location) (a : Ast) : Ast.strip (g l) (rl g a) = rl g (Ast.strip l a) := by
  show _ = Ast.mapLoc g (.strip _ _)
  rw [Ast.mapLoc]
  rfl

theorem Ast.words_rl (l : Location) (a : Ast) : Ast.words (g l) (rl g a) = rl g (Ast.words l a) := by
  show _ = Ast.mapLoc g (.words _ _)
  rw [Ast.mapLoc]
  rfl

theorem Ast.word_rl (l : Location) (a b : Ast) : Ast.word (g l) (rl g a) (rl g b) = rl g (Ast.word l a b) := by
  show _ = Ast.mapLoc g (.word _ _ _)
  rw [Ast.mapLoc]
  rfl

theorem Ast.preEvaluated_rl (l : Location) (b : Block) : Ast.preEvaluated (g l) (rl g b) = rl g (Ast.preEvaluated l b) := by
  show _ = Ast.mapLoc g (.preEvaluated _ _)
  rw [Ast.mapLoc]
  rfl

theorem Ast.collapsingConcat_rl (l : Location) (as : List Ast) :
    Ast.collapsingConcat (g l) (rl g as) = rl g (Ast.collapsingConcat l as) := by
  unfold Ast.collapsingConcat
  have hf : (rl g as).filter (fun a => !a.isEmpty) = rl g (as.filter fun a => !a.isEmpty) := by
    show (as.map (rl g)).filter _ = (as.filter _).map (rl g)
    rw [List.filter_map]
    congr 1
    apply List.filter_congr
    intro a _
    show (!(rl g a).isEmpty) = _
    rw [Ast.isEmpty_rl]
  rw [hf]
  generalize as.filter (fun a => !a.isEmpty) = fs
  rcases fs with _ | ⟨a, _ | ⟨b, bs⟩⟩
  · exact Ast.concat_rl l []
  · rfl
  · exact Ast.concat_rl (g := g) l (a :: b :: bs)

/-! ### Expressions -/

theorem functionArgument_rl (i : Span) : functionArgument (rl g i) = rl g (functionArgument i) := by
  unfold functionArgument
  refine andThen_rl (many0_rl whitespace_rl i) fun i _ => ?_
  rw [Span.chars_rl]
  cases argScan 0 0 (withIndices 0 i.chars.items) with
  | unbalanced => rfl
  | comma j => exact split_done i j
  | toEnd => exact ite_rl (fun _ => rfl) fun _ => split_done i _

/-- The recursive parser commutes with changing locations. -/
def ParseRl (g : Location → Location) (parse : AstParser) : Prop := ∀ i, parse (rl g i) = rl g (parse i)

variable {parse : AstParser} (hp : ParseRl g parse) (loc : Location)
include hp

theorem fnEval_rl (i : Span) : fnEval parse (g loc) (rl g i) = rl g (fnEval parse loc i) := by
  unfold fnEval
  refine andThen_rl (hp i) fun i a => ?_
  rw [Ast.eval_rl]
  rfl

theorem fnStrip_rl (i : Span) : fnStrip parse (g loc) (rl g i) = rl g (fnStrip parse loc i) := by
  unfold fnStrip
  refine andThen_rl (functionArgument_rl i) fun i arg => ite_rl (fun _ => rfl) fun _ => ?_
  refine andThen_rl (hp arg) fun _ a => ?_
  rw [Ast.strip_rl]
  rfl

theorem fnWords_rl (i : Span) : fnWords parse (g loc) (rl g i) = rl g (fnWords parse loc i) := by
  unfold fnWords
  refine andThen_rl (functionArgument_rl i) fun i arg => ite_rl (fun _ => rfl) fun _ => ?_
  refine andThen_rl (hp arg) fun _ a => ?_
  rw [Ast.words_rl]
  rfl

theorem fnWord_rl (i : Span) : fnWord parse (g loc) (rl g i) = rl g (fnWord parse loc i) := by
  unfold fnWord
  refine andThen_rl (functionArgument_rl i) fun i index => bind_rl (char_rl _ i) fun x => ?_
  rcases x with ⟨i, _⟩ | _
  · refine andThen_rl (hp index) fun _ index => andThen_rl (functionArgument_rl i) fun i list => ite_rl (fun _ => rfl) fun _ => ?_
    refine andThen_rl (hp list) fun _ list => ?_
    rw [Ast.word_rl]
    rfl
  · rfl

omit hp in
theorem funcEntry_rl (name : Str) {f f' : Span → PRes Ast} (hf : ∀ i, f' (rl g i) = rl g (f i)) (i : Span) :
    funcEntry name f' (rl g i) = rl g (funcEntry name f i) := by
  unfold funcEntry
  exact andThen_rl (tag_rl _ i) fun i _ => andThen_rl (many1_rl whitespace_rl i) fun i _ => hf i

theorem functionCall_rl (i : Span) : functionCall parse (g loc) (rl g i) = rl g (functionCall parse loc i) := by
  unfold functionCall
  exact orElse_rl (funcEntry_rl _ (fnEval_rl hp loc) i) <| orElse_rl (funcEntry_rl _ (fnStrip_rl hp loc) i) <|
    orElse_rl (funcEntry_rl _ (fnWords_rl hp loc) i) <| orElse_rl (funcEntry_rl _ (fnWord_rl hp loc) i) rfl

theorem advancedVar_rl (o c : Char) (i : Span) : advancedVar parse (g loc) o c (rl g i) = rl g (advancedVar parse loc o c i) := by
  unfold advancedVar
  rw [Span.chars_rl]
  cases balance o c 1 (withIndices 0 i.chars.items) with
  | none => exact ite_rl (fun _ => rfl) fun _ => rfl
  | some k =>
    refine bind_rl (Span.takeSplit_rl i _) fun ⟨i, name⟩ => bind_eq rfl fun n => ?_
    refine bind_rl (functionCall_rl hp loc (name.sliceTo n)) fun x => ?_
    rcases x with _ | ⟨_ | _⟩
    · rfl
    · rfl
    · refine ite_rl (fun _ => ?_) fun _ => rfl
      refine andThen_rl (hp (name.sliceTo n)) fun _ a => ?_
      rw [Ast.varRef_rl]
      rfl

omit hp in
theorem runwrap_rl {α : Type} [Reloc α] (x : Option α) : runwrap (rl g x) = rl g (runwrap x) := by
  cases x <;> rfl

variable [Moves g]

omit hp in
theorem firstConstant_rl (l : Span) : firstConstant (rl g l) = rl g (firstConstant l) := by
  unfold firstConstant
  refine bind_rl (Span.firstSegment_rl l) fun s => bind_rl (runwrap_rl s) fun s => ?_
  rw [Ast.mkConstant_rl]
  rfl

theorem parseVarRef_rl (i : Span) : parseVarRef parse (g loc) (rl g i) = rl g (parseVarRef parse loc i) := by
  unfold parseVarRef
  refine orElse_rl (mapP_rl (eof_rl i) fun _ => Ast.mkConstant_rl ⟨loc, ['$']⟩) <|
    orElse_rl (andThen_rl (tag_rl _ i) fun i l => bind_rl (firstConstant_rl l) fun _ => rfl) <|
    orElse_rl (andThen_rl (char_rl _ i) fun i _ => advancedVar_rl hp loc _ _ i) <|
    orElse_rl (andThen_rl (char_rl _ i) fun i _ => advancedVar_rl hp loc _ _ i) <|
    andThen_rl (take_rl 1 i) fun i l => bind_rl (firstConstant_rl l) fun a => ?_
  rw [Ast.varRef_rl]
  rfl

omit loc in
theorem parseAstLoop_rl (n : Nat) : ∀ (i : Span) (acc : List Ast),
    parseAstLoop parse n (rl g i) (rl g acc) = rl g (parseAstLoop parse n i acc) := by
  induction n with
  | zero => intros; rfl
  | succ n ih =>
    intro i acc
    unfold parseAstLoop
    refine ite_rl (fun _ => ?_) fun _ => rfl
    refine andThen_rl (orElse_rl (andThen_rl (takeUntil_rl _ i) fun r start => andThen_rl (tag_rl _ r) fun r dollar =>
      bind_rl (Span.location_rl dollar) fun loc => bind_rl (runwrap_rl loc) fun loc => rfl)
      (mapP_rl (rest_rl i) fun _ => rfl)) fun i ⟨u, dollar⟩ => ?_
    refine bind_rl (Span.allSegments_rl u) fun segs => ?_
    have hs : rl g acc ++ (rl g segs).map Ast.mkConstant = rl g (acc ++ segs.map Ast.mkConstant) := by
      rw [rl_append]
      congr 1
      show (segs.map (rl g)).map Ast.mkConstant = (segs.map Ast.mkConstant).map (rl g)
      rw [List.map_map, List.map_map]
      exact List.map_congr_left fun s _ => Ast.mkConstant_rl s
    show (match rl g dollar with
      | none => done (rl g i) (rl g acc ++ (rl g segs).map Ast.mkConstant)
      | some loc => (parseVarRef parse loc (rl g i)).andThen fun i child =>
          parseAstLoop parse n i ((rl g acc ++ (rl g segs).map Ast.mkConstant) ++ [child])) = _
    rw [hs]
    cases dollar with
    | none => rfl
    | some loc =>
      refine andThen_rl (parseVarRef_rl hp loc i) fun i child => ?_
      rw [← singleton_rl, ← rl_append]
      exact ih _ _

omit hp loc in
theorem parseAstF_rl (n : Nat) : ParseRl g (parseAstF n) := by
  induction n with
  | zero => intro i; rfl
  | succ n ih =>
    intro i
    unfold parseAstF
    refine bind_rl (Span.location_rl i) fun x => ?_
    cases x with
    | none =>
      show done (rl g i) Ast.mkEmpty = rl g (done i Ast.mkEmpty)
      rw [← Nom.done_rl, Ast.mkEmpty_rl]
    | some start => exact mapP_rl (parseAstLoop_rl ih _ i []) fun nodes => Ast.collapsingConcat_rl start nodes

omit hp loc in
theorem parseAst_rl (i : Span) : parseAst (rl g i) = rl g (parseAst i) := parseAstF_rl _ i

omit hp loc parse

omit [Moves g] in
theorem grabCommandLine_rl (c : Char) (i : Span) : grabCommandLine c (rl g i) = rl g (grabCommandLine c i) := by
  unfold grabCommandLine
  exact andThen_rl (char_rl _ i) fun i _ => grabLine_rl i

theorem recipeLoop_rl (c : Char) (n : Nat) : ∀ (i : Span) (line : Block),
    recipeLoop c n (rl g i) (rl g line) = rl g (recipeLoop c n i line) := by
  induction n with
  | zero => intros; rfl
  | succ n ih =>
    intro i line
    unfold recipeLoop
    have hast : ∀ (b : Block) (j : Span), ((parseAst (rl g b).span).andThen fun _ ast => done (rl g j) ast) =
        rl g ((parseAst b.span).andThen fun _ ast => done j ast) := by
      intro b j
      rw [Block.span_rl]
      exact andThen_rl (parseAst_rl _) fun _ _ => rfl
    have hn : (rl g line).push CRef.newline = rl g (line.push CRef.newline) := by
      rw [← Block.push_rl, newline_rl]
    refine bind_eq (by rw [Block.span_rl, endsWithBackslash_rl]) fun k => ite_rl (fun _ => ?_) fun _ => hast _ _
    refine bind_rl (grabCommandLine_rl c i) fun x => ?_
    rcases x with ⟨j, next, reason⟩ | _
    · refine bind_rl (Span.toContentReference_rl next) fun cr => ?_
      rw [hn, Block.push_rl]
      exact ite_rl (fun _ => hast _ _) fun _ => ih _ _
    · show ((parseAst ((rl g line).push CRef.newline).span).andThen fun _ ast => done (rl g i) ast) = _
      rw [hn]
      exact hast _ _

theorem recipeLine_rl (c : Char) (i : Span) : recipeLine c (rl g i) = rl g (recipeLine c i) := by
  unfold recipeLine
  refine andThen_rl (grabCommandLine_rl c i) fun i ⟨line, reason⟩ => ite_rl (fun _ => ?_) fun _ => ?_
  · exact andThen_rl (parseAst_rl line) fun _ _ => rfl
  · exact bind_rl (Span.toNewBlock_rl line) fun b => recipeLoop_rl c _ _ _

/-! ### Text functions -/

omit [Moves g] in
theorem matchToken_rl (pre post : Str) (i : Span) : matchToken pre post (rl g i) = rl g (matchToken pre post i) := by
  unfold matchToken
  exact andThen_rl (tag_rl _ i) fun i _ => andThen_rl (recognize_rl (many1_rl (takeUntil_rl _)) i) fun i c =>
    andThen_rl (tag_rl _ i) fun i _ => rfl

omit [Moves g] in
theorem replaceToken_rl (pre post : Str) (a b : Span) (out : Block) (t : Span) :
    replaceToken pre post (rl g a) (rl g b) (rl g out) (rl g t) = rl g (replaceToken pre post a b out t) := by
  unfold replaceToken
  refine ite_rl (fun _ => Block.pushAll_rl _ _) fun _ => bind_rl (matchToken_rl pre post t) fun x => ?_
  rcases x with ⟨r, c⟩ | _
  · exact ite_rl (fun _ => Block.pushAll_rl _ _) fun _ => bind_rl (Block.pushAll_rl _ _) fun o =>
      bind_rl (Block.pushAll_rl _ _) fun o => Block.pushAll_rl _ _
  · exact Block.pushAll_rl _ _

theorem replaceLoop_rl (pre post : Str) (a b : Span) (n : Nat) : ∀ (first : Bool) (t : Span) (out : Block),
    replaceLoop pre post (rl g a) (rl g b) n first (rl g t) (rl g out) = rl g (replaceLoop pre post a b n first t out) := by
  induction n with
  | zero => intros; rfl
  | succ n ih =>
    intro first t out
    unfold replaceLoop
    refine ite_rl (fun _ => ?_) fun _ => rfl
    refine bind_rl (token_rl t) fun x => ?_
    rcases x with ⟨t, tok⟩ | _
    · have ho : (if first then rl g out else (rl g out).push CRef.space) = rl g (if first then out else out.push CRef.space) := by
        refine ite_rl (fun _ => rfl) fun _ => ?_
        rw [← Block.push_rl, space_rl]
      show ((replaceToken pre post (rl g a) (rl g b) (if first then rl g out else (rl g out).push CRef.space) (rl g tok)) >>= _) = _
      rw [ho]
      exact bind_rl (replaceToken_rl _ _ _ _ _ _) fun o => ih _ _ _
    · rfl

theorem doReplacement_rl (t : Span) (sens : Sens) (pre post : Str) (a b : Span) :
    doReplacement (rl g t) sens pre post (rl g a) (rl g b) = rl g (doReplacement t sens pre post a b) := by
  unfold doReplacement
  have h := replaceLoop_rl (g := g) pre post a b (t.length + 1) true t ⟨sens, []⟩
  rw [Block.rl_mk] at h
  exact bind_rl h fun o => Block.simplify_rl o

theorem doSubref_rl (sens : Sens) (v k r : Block) : doSubref sens (rl g v) (rl g k) (rl g r) = rl g (doSubref sens v k r) := by
  unfold doSubref
  rw [Block.span_rl, Block.span_rl, Block.span_rl]
  refine bind_rl (takeUntilUnquote_rl _ _) fun ⟨pk, x⟩ => ?_
  rcases x with _ | ⟨sc, po⟩
  · refine bind_eq (Block.intoString_rl pk) fun post => ?_
    rw [← doReplacement_rl, Span.empty_rl]
  · refine bind_eq (Block.intoString_rl pk) fun pre => bind_eq (Span.intoString_rl po) fun post => ?_
    refine bind_rl (takeUntilUnquote_rl _ _) fun ⟨pr, x⟩ => ?_
    rcases x with _ | ⟨sc, pr'⟩
    · show doReplacement _ _ _ _ _ (rl g pr).span = rl g (doReplacement _ _ _ _ _ pr.span)
      rw [← doReplacement_rl, Span.empty_rl, Block.span_rl]
    · show doReplacement _ _ _ _ (rl g pr).span _ = rl g (doReplacement _ _ _ _ pr.span _)
      rw [← doReplacement_rl, Block.span_rl]

omit [Moves g] in
theorem colonFind_rl (i : Span) : colonFind (rl g i) = rl g (colonFind i) := by
  unfold colonFind
  exact andThen_rl (recognize_rl (many1_rl (takeUntilAndConsume_rl _)) i) fun i _ =>
    andThen_rl (recognize_rl (many1_rl (takeUntilAndConsume_rl _)) i) fun i _ => rfl

/-! ### Assignments -/

instance : Reloc AssignType := ⟨fun _ x => x⟩
instance : Reloc Modifier := ⟨fun _ x => x⟩
instance : Reloc DefineLineAction := ⟨fun _ x => x⟩
instance : Reloc CondType := ⟨fun _ x => x⟩
instance : Reloc MWordEnd := ⟨fun _ x => x⟩

omit [Moves g] in
theorem assignOperator_rl (i : Span) : assignOperator (rl g i) = rl g (assignOperator i) := by
  unfold assignOperator
  exact orElse_rl (mapP_rl (tag_rl _ i) fun _ => rfl) <| orElse_rl (mapP_rl (tag_rl _ i) fun _ => rfl) <|
    orElse_rl (mapP_rl (tag_rl _ i) fun _ => rfl) <| orElse_rl (mapP_rl (tag_rl _ i) fun _ => rfl) <|
    orElse_rl (mapP_rl (tag_rl _ i) fun _ => rfl) <| mapP_rl (tag_rl _ i) fun _ => rfl

omit [Moves g] in
theorem parseAssignmentOperator_rl (i : Span) : parseAssignmentOperator (rl g i) = rl g (parseAssignmentOperator i) := by
  unfold parseAssignmentOperator
  exact andThen_rl (takeTill_rl _ i) fun i _ => andThen_rl (whitespace_rl i) fun i _ => andThen_rl (assignOperator_rl i) fun i _ =>
    andThen_rl (whitespace_rl i) fun i _ => rfl

theorem splitAssignment_rl (i : Span) : splitAssignment (rl g i) = rl g (splitAssignment i) := by
  unfold splitAssignment
  exact andThen_rl (parseAssignmentOperator_rl i) fun i nt => andThen_rl (whitespace_rl i) fun v _ =>
    andThen_rl (parseAst_rl _) fun _ na => andThen_rl (parseAst_rl v) fun post va => rfl

omit [Moves g] in
theorem modifierKeyword_rl (i : Span) : modifierKeyword (rl g i) = rl g (modifierKeyword i) := by
  unfold modifierKeyword
  exact andThen_rl (orElse_rl (mapP_rl (tagNoCase_rl _ i) fun _ => rfl) <| orElse_rl (mapP_rl (tagNoCase_rl _ i) fun _ => rfl) <|
    orElse_rl (mapP_rl (tagNoCase_rl _ i) fun _ => rfl) <| orElse_rl (mapP_rl (tagNoCase_rl _ i) fun _ => rfl) <|
    mapP_rl (tagNoCase_rl _ i) fun _ => rfl) fun i _ => andThen_rl (whitespace_rl i) fun i _ => rfl

instance : Reloc DefineLine := ⟨fun g d => ⟨rl g d.content, d.action, g d.location⟩⟩

omit [Moves g] in
theorem grabDefineLine_rl (i : Span) : grabDefineLine (rl g i) = rl g (grabDefineLine i) := by
  unfold grabDefineLine
  exact orElse_rl (takeUntil_rl _ i) <|
    orElse_rl (recognize_rl (fun i => andThen_rl (takeUntil_rl _ i) fun r _ => tag_rl _ r) i) <|
    orElse_rl (recognize_rl (fun i => andThen_rl (takeUntil_rl _ i) fun r _ => tag_rl _ r) i) <| rest_rl i

theorem parseDefineLine_rl (i : Span) : parseDefineLine (rl g i) = rl g (parseDefineLine i) := by
  unfold parseDefineLine
  refine andThen_rl (grabDefineLine_rl i) fun next i => bind_rl (Span.location_rl i) fun loc => bind_rl (runwrap_rl loc) fun loc => ?_
  refine andThen_rl (parseAst_rl i) fun _ ast => andThen_rl (whitespace_rl i) fun i _ => ?_
  exact andThen_rl (orElse_rl (mapP_rl (tag_rl _ i) fun _ => rfl) <| orElse_rl (mapP_rl (tag_rl _ i) fun _ => rfl) <|
    mapP_rl (rest_rl i) fun _ => rfl) fun i action => andThen_rl (takeWhile_rl _ i) fun i _ => ite_rl (fun _ => rfl) fun _ => rfl

/-! ### Conditionals -/

omit [Moves g] in
theorem condKeyword_rl (i : Span) : condKeyword (rl g i) = rl g (condKeyword i) := by
  unfold condKeyword
  exact andThen_rl (whitespace_rl i) fun i _ => andThen_rl (orElse_rl (mapP_rl (tagNoCase_rl _ i) fun _ => rfl) <|
    orElse_rl (mapP_rl (tagNoCase_rl _ i) fun _ => rfl) <| orElse_rl (mapP_rl (tagNoCase_rl _ i) fun _ => rfl) <|
    orElse_rl (mapP_rl (tagNoCase_rl _ i) fun _ => rfl) <| orElse_rl (mapP_rl (tagNoCase_rl _ i) fun _ => rfl) <|
    mapP_rl (tagNoCase_rl _ i) fun _ => rfl) fun i _ => andThen_rl (whitespace_rl i) fun i _ => rfl

omit [Moves g] in
theorem takeTillTerminator_rl (c : Char) (i : Span) : takeTillTerminator c (rl g i) = rl g (takeTillTerminator c i) := by
  unfold takeTillTerminator
  rw [Span.chars_rl]
  refine ite_rl (fun _ => ?_) fun _ => ?_
  · cases ifeqScan c 0 (withIndices 0 i.chars.items) with
    | some k => exact bind_rl (Span.sliceFrom_rl i k) fun l => andThen_rl (char_rl _ l) fun _ _ => rfl
    | none => exact ite_rl (fun _ => rfl) fun _ => rfl
  · exact andThen_rl (takeTill_rl _ i) fun l _ => andThen_rl (char_rl _ l) fun _ _ => rfl

theorem parseIfeq_rl (i : Span) : parseIfeq (rl g i) = rl g (parseIfeq i) := by
  unfold parseIfeq
  refine andThen_rl (orElse_rl (mapP_rl (char_rl _ i) fun _ => rfl) <| orElse_rl (mapP_rl (char_rl _ i) fun _ => rfl) <|
    mapP_rl (char_rl _ i) fun _ => rfl) fun i t => ?_
  refine andThen_rl (takeTillTerminator_rl t i) fun i a1 => andThen_rl (parseAst_rl a1) fun _ a1 => ?_
  refine andThen_rl (whitespace_rl i) fun i _ => ?_
  refine andThen_rl (ite_rl (fun _ => rfl) fun _ => orElse_rl (mapP_rl (char_rl _ i) fun _ => rfl) <|
    mapP_rl (char_rl _ i) fun _ => rfl) fun i t => ?_
  exact andThen_rl (takeTillTerminator_rl t i) fun i a2 => andThen_rl (parseAst_rl a2) fun _ a2 => rfl

/-- Change every location in a conditional. -/
def Conditional.mapLoc (g : Location → Location) : Conditional → Conditional
  | .ifDef a => .ifDef (rl g a)
  | .ifNDef a => .ifNDef (rl g a)
  | .ifEq a b => .ifEq (rl g a) (rl g b)
  | .ifNEq a b => .ifNEq (rl g a) (rl g b)
  | .else_ none => .else_ none
  | .else_ (some c) => .else_ (some (Conditional.mapLoc g c))
  | .endIf => .endIf

instance : Reloc Conditional := ⟨Conditional.mapLoc⟩

theorem parseCondF_rl (n : Nat) : ∀ i : Span, parseCondF n (rl g i) = rl g (parseCondF n i) := by
  induction n with
  | zero => intro i; rfl
  | succ n ih =>
    intro i
    unfold parseCondF
    refine andThen_rl (condKeyword_rl i) fun i t => ?_
    cases t with
    | ifDef => exact mapP_rl (returnError_rl (parseAst_rl i)) fun a => by simp only [rl, Conditional.mapLoc]
    | ifNDef => exact mapP_rl (returnError_rl (parseAst_rl i)) fun a => by simp only [rl, Conditional.mapLoc]
    | ifEq => exact mapP_rl (parseIfeq_rl i) fun a => by simp only [rl, Conditional.mapLoc]
    | ifNEq => exact mapP_rl (parseIfeq_rl i) fun a => by simp only [rl, Conditional.mapLoc]
    | else_ =>
      refine andThen_rl (whitespace_rl i) fun i _ => ite_rl (fun _ => ?_) fun _ => ?_
      · refine andThen_rl (returnError_rl (ih i)) fun i c => ?_
        show _ = rl g _
        rcases c with _ | _ | _ | _ | (_ | _) | _ <;> simp only [rl, Conditional.mapLoc, done, failOut]
      · simp only [rl, Conditional.mapLoc, done]
    | endIf => exact ite_rl (fun _ => rfl) fun _ => by simp only [rl, Conditional.mapLoc, done]

theorem parseConditionalLine_rl (i : Span) : parseConditionalLine (rl g i) = rl g (parseConditionalLine i) := parseCondF_rl _ i

/-! ### Target lines -/

omit [Moves g] in
theorem nextMword_rl (i : Span) : nextMword (rl g i) = rl g (nextMword i) := by
  unfold nextMword
  refine andThen_rl (whitespace_rl i) fun i _ => orElse_rl (mapP_rl (tag_rl _ i) fun _ => rfl) <|
    orElse_rl (mapP_rl (tag_rl _ i) fun _ => rfl) <| orElse_rl (mapP_rl (tag_rl _ i) fun _ => rfl) <|
    orElse_rl (mapP_rl (tag_rl _ i) fun _ => rfl) <| orElse_rl (mapP_rl (tag_rl _ i) fun _ => rfl) <|
    orElse_rl (mapP_rl (tag_rl _ i) fun _ => rfl) <| orElse_rl (mapP_rl (tag_rl _ i) fun _ => rfl) <|
    orElse_rl (mapP_rl (tag_rl _ i) fun _ => rfl) <| orElse_rl (mapP_rl (tag_rl _ i) fun _ => rfl) ?_
  rw [Span.chars_rl]
  exact bind_eq rfl fun sr => bind_rl (Span.takeSplit_rl i _) fun _ => rfl

omit [Moves g] in
theorem isDrivespec_rl (pre : Block) (post : Span) : isDrivespec (rl g pre) (rl g post) = isDrivespec pre post := by
  unfold isDrivespec
  rw [firstChar_rl, Block.len_rl, Block.span_rl, firstChar_rl]
  congr 1
  funext x
  cases x with
  | none => rfl
  | some ch =>
    dsimp only
    split
    · rfl
    · split
      · rfl
      · split
        · rfl
        · congr 1
          funext n
          rw [Span.sliceFrom_rl]
          cases pre.span.sliceFrom n with
          | ok s =>
            show ((rassert (decide (s.length = 2))) >>= fun _ => match (rl g s).chars.items with
              | ch1 :: ch2 :: _ => pure (isAlphabetic ch1 && (isWhitespace ch2 || ch2 == '('))
              | _ => Res.panic .unwrap) = _
            rw [Span.chars_rl]
            rfl
          | panic p => rfl
          | fuel => rfl

theorem colonLoop_rl (n : Nat) : ∀ (i : Span) (b : Block), colonLoop n (rl g i) (rl g b) = rl g (colonLoop n i b) := by
  induction n with
  | zero => intros; rfl
  | succ n ih =>
    intro i b
    unfold colonLoop
    refine bind_rl (takeUntilUnquote_rl i _) fun ⟨pre, x⟩ => ?_
    rcases x with _ | ⟨colon, post⟩
    · refine bind_rl ?_ fun c => rfl
      rw [Block.span_rl]
      exact Block.pushAll_rl _ _
    · refine bind_rl ?_ fun c => bind_eq (isDrivespec_rl pre post) fun d => ite_rl (fun _ => ?_) fun _ => rfl
      · rw [Block.span_rl]
        exact Block.pushAll_rl _ _
      · exact bind_rl (Block.pushAll_rl _ _) fun c => ih _ _

theorem findNonDrivespecColon_rl (i : Span) : findNonDrivespecColon (rl g i) = rl g (findNonDrivespecColon i) := by
  unfold findNonDrivespecColon
  have h := colonLoop_rl (g := g) (i.length + 1) i Block.empty
  rw [Block.empty_rl] at h
  exact h

theorem pushWord_rl (a b : Block) : pushWord (rl g a) (rl g b) = rl g (pushWord a b) := by
  unfold pushWord
  rw [Block.len_rl, Block.span_rl]
  have h : (if a.len > 0 then (rl g a).push CRef.space else rl g a) = rl g (if a.len > 0 then a.push CRef.space else a) := by
    refine ite_rl (fun _ => ?_) fun _ => rfl
    rw [← Block.push_rl, space_rl]
  rw [h]
  exact Block.pushAll_rl _ _

instance : Reloc Directive := ⟨fun g d =>
  match d with
  | .include_ a => .include_ (rl g a)
  | .softInclude a => .softInclude (rl g a)
  | .export_ a => .export_ (rl g a)
  | .unexport a => .unexport (rl g a)
  | .vpath a => .vpath (rl g a)
  | .load a => .load (rl g a)
  | .softLoad a => .softLoad (rl g a)⟩

theorem parseDirectiveLine_rl (i : Span) : parseDirectiveLine (rl g i) = rl g (parseDirectiveLine i) := by
  unfold parseDirectiveLine
  exact orElse_rl (andThen_rl (tagNoCase_rl _ i) fun i _ => mapP_rl (parseAst_rl i) fun _ => rfl) <|
    orElse_rl (andThen_rl (tagNoCase_rl _ i) fun i _ => mapP_rl (parseAst_rl i) fun _ => rfl) <|
    orElse_rl (andThen_rl (tagNoCase_rl _ i) fun i _ => mapP_rl (parseAst_rl i) fun _ => rfl) <|
    orElse_rl (andThen_rl (tagNoCase_rl _ i) fun i _ => mapP_rl (parseAst_rl i) fun _ => rfl) <|
    orElse_rl (andThen_rl (tagNoCase_rl _ i) fun i _ => mapP_rl (parseAst_rl i) fun _ => rfl) <|
    orElse_rl (andThen_rl (tagNoCase_rl _ i) fun i _ => mapP_rl (parseAst_rl i) fun _ => rfl) <|
    orElse_rl (andThen_rl (tagNoCase_rl _ i) fun i _ => mapP_rl (parseAst_rl i) fun _ => rfl) <|
    andThen_rl (tagNoCase_rl _ i) fun i _ => mapP_rl (parseAst_rl i) fun _ => rfl

end Hastur
