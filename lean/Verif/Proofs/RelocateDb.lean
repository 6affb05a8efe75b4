import Verif.Proofs.RelocateAst
import Verif.Proofs.Db
/-
States that mean the same: what interning names, setting variables and storing rules does to them.
-/
namespace Hastur

open Res Span

variable {g : Location → Location}

/-- Both states know their files, and they mean the same. -/
structure StRel (g : Location → Location) (st st' : St) : Prop where
  same : SameMeaning g st st'
  left : st.FilesKnown
  right : st'.FilesKnown

theorem SameMeaning.refl (st : St) : SameMeaning g st st := ⟨rfl, rfl, fun _ => rfl, fun _ _ => rfl, fun _ => rfl⟩

theorem SameMeaning.symm {st st' : St} (h : SameMeaning g st st') : SameMeaning g st' st :=
  ⟨h.commandChar.symm, h.names.symm, fun v => (h.variables v).symm, fun s v => (h.targetVariables s v).symm,
    fun s => (h.rules s).symm⟩

theorem SameMeaning.trans {a b c : St} (h : SameMeaning g a b) (h' : SameMeaning g b c) : SameMeaning g a c :=
  ⟨h.commandChar.trans h'.commandChar, h.names.trans h'.names, fun v => (h.variables v).trans (h'.variables v),
    fun s v => (h.targetVariables s v).trans (h'.targetVariables s v), fun s => (h.rules s).trans (h'.rules s)⟩

/-! ### File names -/

theorem files_fileName_iff {n : NameCache} (h : n.files.strings.Nodup) (s : Str) (f : FileName) :
    n.fileName s = some f ↔ n.resolveFile f = some s := by
  unfold NameCache.fileName NameCache.resolveFile
  constructor
  · intro hs
    cases hg : n.files.get s with
    | none => simp [hg] at hs
    | some k =>
      simp only [hg, Option.map_some, Option.some.injEq] at hs
      subst hs
      exact Interner.get_some hg
  · intro hr
    rw [Interner.resolve_get h hr]
    rfl

theorem resolveFile_mono {n : NameCache} (s : Str) {f : FileName} {t : Str} (h : n.resolveFile f = some t) :
    (n.internFile s).2.resolveFile f = some t := Interner.resolve_mono _ _ _ _ h

theorem nodup_internFile {n : NameCache} (s : Str) (h : n.files.strings.Nodup) : (n.internFile s).2.files.strings.Nodup :=
  Interner.nodup_intern _ _ h

/-- The names are extended: handles keep their meaning. -/
def NameCache.Ext (n m : NameCache) : Prop := ∀ f s, n.resolveFile f = some s → m.resolveFile f = some s

/-- Replacing the table of files by an extension keeps what a state means. -/
theorem St.FilesKnown.extend {st : St} (hk : st.FilesKnown) {m : NameCache} (hv : m.vars = st.names.vars)
    (hn : m.files.strings.Nodup) (he : st.names.Ext m) :
    St.FilesKnown { st with names := m } ∧ SameMeaning g st { st with names := m } := by
  have hname : ∀ s f, (∃ t, st.names.resolveFile f = some t) → (m.fileName s = some f ↔ st.names.fileName s = some f) := by
    rintro s f ⟨t, ht⟩
    rw [files_fileName_iff hn, files_fileName_iff hk.nodup, he f t ht, ht]
  have hbind : ∀ {β : Type} (s : Str) (k : FileName → Option β), (∀ f b, k f = some b → ∃ t, st.names.resolveFile f = some t) →
      (st.names.fileName s).bind k = (m.fileName s).bind k := by
    intro β s k hb
    apply Option.ext
    intro b
    simp only [Option.bind_eq_some_iff]
    constructor
    · rintro ⟨f, h1, h2⟩
      exact ⟨f, (hname s f (hb f b h2)).mpr h1, h2⟩
    · rintro ⟨f, h1, h2⟩
      exact ⟨f, (hname s f (hb f b h2)).mp h1, h2⟩
  refine ⟨⟨hn, ?_, ?_⟩, ⟨rfl, hv.symm, fun _ => rfl, ?_, ?_⟩⟩
  · intro f r hr
    obtain ⟨⟨s, h1⟩, ⟨t, h2⟩, h3⟩ := hk.rules f r hr
    refine ⟨⟨s, he _ _ h1⟩, ⟨t, he _ _ h2⟩, fun d hd => ?_⟩
    obtain ⟨u, hu⟩ := h3 d hd
    exact ⟨u, he _ _ hu⟩
  · intro f v p hp
    obtain ⟨s, hs⟩ := hk.targetVariables f v p hp
    exact ⟨s, he _ _ hs⟩
  · intro s v
    congr 1
    exact hbind s _ fun f p hp => hk.targetVariables f v p hp
  · intro s
    have hr : St.ruleNamed st s = St.ruleNamed { st with names := m } s := hbind s _ fun f r hr => (hk.rules f r hr).1
    rw [← hr]
    cases hx : st.ruleNamed s with
    | none => rfl
    | some r =>
      obtain ⟨f, -, h2⟩ := Option.bind_eq_some_iff.mp hx
      obtain ⟨-, ⟨t, ht⟩, hd⟩ := hk.rules f r h2
      simp only [Option.map_some, Rule.named]
      congr 2
      · exact ht.trans (he _ _ ht).symm
      · refine List.map_congr_left fun d hm => ?_
        obtain ⟨u, hu⟩ := hd d hm
        exact hu.trans (he _ _ hu).symm

theorem St.FilesKnown.internFile {st : St} (hk : st.FilesKnown) (s : Str) :
    St.FilesKnown { st with names := (st.names.internFile s).2 } ∧
      SameMeaning g st { st with names := (st.names.internFile s).2 } :=
  hk.extend rfl (nodup_internFile s hk.nodup) fun _ _ h => resolveFile_mono s h

theorem StRel.internFiles {st st' : St} (h : StRel g st st') (s s' : Str) :
    StRel g { st with names := (st.names.internFile s).2 } { st' with names := (st'.names.internFile s').2 } := by
  obtain ⟨k, m⟩ := St.FilesKnown.internFile (g := g) h.left s
  obtain ⟨k', m'⟩ := St.FilesKnown.internFile (g := g) h.right s'
  exact ⟨m.symm.trans (h.same.trans m'), k, k'⟩

theorem StRel.internVar {st st' : St} (h : StRel g st st') (s : Str) :
    (st.names.internVar s).1 = (st'.names.internVar s).1 ∧
      StRel g { st with names := (st.names.internVar s).2 } { st' with names := (st'.names.internVar s).2 } := by
  have e : st.names.vars.intern s = st'.names.vars.intern s := by rw [h.same.names]
  refine ⟨?_, ⟨⟨h.same.commandChar, ?_, h.same.variables, h.same.targetVariables, h.same.rules⟩, ⟨h.left.nodup, h.left.rules,
    h.left.targetVariables⟩, ⟨h.right.nodup, h.right.rules, h.right.targetVariables⟩⟩⟩
  · show VariableName.mk (st.names.vars.intern s).1 = VariableName.mk (st'.names.vars.intern s).1
    rw [e]
  · show (st.names.vars.intern s).2 = (st'.names.vars.intern s).2
    rw [e]

/-! ### Variables -/

instance : Reloc VarParams := ⟨VarParams.mapLoc⟩

theorem StRel.setVariable {st st' : St} (h : StRel g st st') (v : VariableName) {p p' : VarParams} (hp : rl g p = rl g p') :
    StRel g { st with db := st.db.setVariable v p } { st' with db := st'.db.setVariable v p' } := by
  refine ⟨⟨h.same.commandChar, h.same.names, fun u => ?_, h.same.targetVariables, h.same.rules⟩,
    ⟨h.left.nodup, h.left.rules, h.left.targetVariables⟩, ⟨h.right.nodup, h.right.rules, h.right.targetVariables⟩⟩
  show ((st.db.variables.insert v p).get u).map _ = ((st'.db.variables.insert v p').get u).map _
  rw [AMap.get_insert, AMap.get_insert]
  split
  · exact congrArg some hp
  · exact h.same.variables u

theorem rl_cons_inj {α : Type} [Reloc α] {a a' : α} {as as' : List α} (h : rl g (a :: as) = rl g (a' :: as')) :
    rl g a = rl g a' ∧ rl g as = rl g as' := by
  injection h with h1 h2
  exact ⟨h1, h2⟩

theorem rl_cons {α : Type} [Reloc α] {a a' : α} {as as' : List α} (h : rl g a = rl g a') (h' : rl g as = rl g as') :
    rl g (a :: as) = rl g (a' :: as') := by
  show rl g a :: rl g as = rl g a' :: rl g as'
  rw [h, h']

theorem VarParams.rl_value {p p' : VarParams} (h : rl g p = rl g p') : rl g p.value = rl g p'.value :=
  congrArg VarParams.value h

theorem VarParams.rl_flavor {p p' : VarParams} (h : rl g p = rl g p') : p.flavor = p'.flavor :=
  (congrArg VarParams.flavor h : (rl g p).flavor = (rl g p').flavor)

theorem VarParams.rl_origin {p p' : VarParams} (h : rl g p = rl g p') : p.origin = p'.origin :=
  (congrArg VarParams.origin h : (rl g p).origin = (rl g p').origin)

theorem VarParams.rl_mk {v v' : Ast} (f : Flavor) (o : Origin) (h : rl g v = rl g v') :
    rl g (VarParams.mk v f o) = rl g (VarParams.mk v' f o) := by
  show VarParams.mk (rl g v) f o = VarParams.mk (rl g v') f o
  rw [h]

/-- Two related lookups. -/
theorem StRel.getVariable {st st' : St} (h : StRel g st st') (v : VariableName) :
    (st.db.getVariable v = none ∧ st'.db.getVariable v = none) ∨
      ∃ p p', st.db.getVariable v = some p ∧ st'.db.getVariable v = some p' ∧ rl g p = rl g p' := by
  have := h.same.variables v
  cases h1 : st.db.getVariable v <;> cases h2 : st'.db.getVariable v <;> rw [h1, h2] at this
  · exact .inl ⟨rfl, rfl⟩
  · cases this
  · cases this
  · injection this with this
    exact .inr ⟨_, _, rfl, rfl, this⟩

theorem StRel.appendToVariable [Moves g] {st st' : St} (h : StRel g st st') (v : VariableName) {l l' : Location} (hl : g l = g l')
    {p p' : VarParams} (hp : rl g p = rl g p') (space : Bool) :
    StRel g { st with db := st.db.appendToVariable v l p space } { st' with db := st'.db.appendToVariable v l' p' space } := by
  have hs := h.setVariable v hp
  unfold Database.appendToVariable
  rcases h.getVariable v with ⟨h1, h2⟩ | ⟨q, q', h1, h2, hq⟩
  · have e1 : st.db.variables.get v = none := h1
    have e2 : st'.db.variables.get v = none := h2
    rw [e1, e2]
    exact hs
  · have e1 : st.db.variables.get v = some q := h1
    have e2 : st'.db.variables.get v = some q' := h2
    rw [e1, e2]
    refine h.setVariable v ?_
    show VarParams.mk (rl g _) q.flavor q.origin = VarParams.mk (rl g _) q'.flavor q'.origin
    rw [VarParams.rl_flavor hq, VarParams.rl_origin hq]
    congr 1
    rw [← Ast.collapsingConcat_rl, ← Ast.collapsingConcat_rl, hl]
    congr 1
    split
    · exact rl_cons (VarParams.rl_value hq) (rl_cons rfl (rl_cons (VarParams.rl_value hp) rfl))
    · exact rl_cons (VarParams.rl_value hq) (rl_cons (VarParams.rl_value hp) rfl)

/-! ### Rules -/

theorem SameOutcome.refl {α : Type} {R : α → α → Prop} (hR : ∀ a, R a a) (x : Res α) : SameOutcome R x x := by
  cases x
  · exact hR _
  · rfl
  · trivial

theorem SameOutcome.bind {α β : Type} {R : α → α → Prop} {S : β → β → Prop} {p p' : Res α} {f f' : α → Res β}
    (hp : SameOutcome R p p') (hf : ∀ a a', R a a' → SameOutcome S (f a) (f' a')) : SameOutcome S (p >>= f) (p' >>= f') := by
  cases p <;> cases p' <;> first | exact hf _ _ hp | exact hp | cases hp

/-- Equal up to locations, as outcomes. -/
theorem SameOutcome.of_rl {α : Type} [Reloc α] {p p' : Res α} (h : rl g p = rl g p') :
    SameOutcome (fun a a' => rl g a = rl g a') p p' := by
  cases p <;> cases p'
  · exact Res.ok.inj h
  · cases h
  · cases h
  · cases h
  · exact Res.panic.inj h
  · cases h
  · cases h
  · cases h
  · trivial

theorem SameOutcome.eq {α : Type} {p p' : Res α} (h : p = p') : SameOutcome Eq p p' := by
  subst h
  exact SameOutcome.refl (fun _ => rfl) p

/-- A function that commutes with changing locations respects equality up to locations. -/
theorem rl_congr {α β : Type} [Reloc α] [Reloc β] {f : α → β} (hf : ∀ a, f (rl g a) = rl g (f a)) {a a' : α}
    (h : rl g a = rl g a') : rl g (f a) = rl g (f a') := by
  rw [← hf, h, hf]

/-- A function that does not see locations. -/
theorem rl_const {α β : Type} [Reloc α] {f : α → β} (hf : ∀ a, f (rl g a) = f a) {a a' : α} (h : rl g a = rl g a') :
    f a = f a' := by
  rw [← hf, h, hf]

theorem intoString_congr {b b' : Block} (h : rl g b = rl g b') : b.intoString = b'.intoString :=
  rl_const (f := Block.intoString) Block.intoString_rl h

/-- Adding a name to a list without duplicates. -/
def addName (s : List (Option Str)) (x : Option Str) : List (Option Str) := if x ∈ s then s else s ++ [x]

theorem setInsert_names {n : NameCache} (hn : n.files.strings.Nodup) {s : List FileName} {f : FileName} {t : Str}
    (hf : n.resolveFile f = some t) :
    (Database.setInsert s f).map n.resolveFile = addName (s.map n.resolveFile) (n.resolveFile f) := by
  unfold Database.setInsert addName
  have hiff : n.resolveFile f ∈ s.map n.resolveFile ↔ f ∈ s := by
    rw [List.mem_map]
    constructor
    · rintro ⟨d, hd, e⟩
      have h1 := (files_fileName_iff hn t d).mpr (e.trans hf)
      have h2 := (files_fileName_iff hn t f).mpr hf
      rw [h1] at h2
      injection h2 with h2
      exact h2 ▸ hd
    · intro h
      exact ⟨f, h, rfl⟩
  by_cases h : f ∈ s
  · rw [if_pos h, if_pos (hiff.mpr h)]
  · rw [if_neg h, if_neg (fun c => h (hiff.mp c)), List.map_append]
    rfl

theorem foldl_setInsert_names {n : NameCache} (hn : n.files.strings.Nodup) (fs : List FileName)
    (hf : ∀ f ∈ fs, ∃ t, n.resolveFile f = some t) : ∀ s : List FileName,
    (fs.foldl Database.setInsert s).map n.resolveFile = (fs.map n.resolveFile).foldl addName (s.map n.resolveFile) := by
  induction fs with
  | nil => intro s; rfl
  | cons f fs ih =>
    intro s
    obtain ⟨t, ht⟩ := hf f (List.mem_cons_self ..)
    rw [List.foldl_cons, ih fun f h => hf f (List.mem_cons_of_mem _ h), setInsert_names hn ht]
    rfl

/-- What interning a list of blocks gives. -/
structure InternedNames (n : NameCache) (x x' : List FileName × NameCache) (n' : NameCache) : Prop where
  vars : x.2.vars = n.vars ∧ x'.2.vars = n'.vars
  nodup : x.2.files.strings.Nodup ∧ x'.2.files.strings.Nodup
  ext : n.Ext x.2 ∧ n'.Ext x'.2
  known : (∀ f ∈ x.1, ∃ t, x.2.resolveFile f = some t) ∧ ∀ f ∈ x'.1, ∃ t, x'.2.resolveFile f = some t
  same : x.1.map x.2.resolveFile = x'.1.map x'.2.resolveFile

theorem NameCache.Ext.trans {a b c : NameCache} (h : a.Ext b) (h' : b.Ext c) : a.Ext c := fun f s e => h' f s (h f s e)

theorem internFile_ext (n : NameCache) (s : Str) : n.Ext (n.internFile s).2 := fun _ _ h => resolveFile_mono s h

theorem resolveFile_internFile' (n : NameCache) (s : Str) :
    (n.internFile s).2.resolveFile (n.internFile s).1 = some s := Interner.resolve_intern _ _

theorem internBlocks_same : ∀ (bs bs' : List Block) (n n' : NameCache), rl g bs = rl g bs' → n.files.strings.Nodup →
    n'.files.strings.Nodup →
    SameOutcome (fun x x' => InternedNames n x x' n') (Database.internBlocks n bs) (Database.internBlocks n' bs')
  | [], [], n, n', _, hn, hn' => ⟨⟨rfl, rfl⟩, ⟨hn, hn'⟩, ⟨fun _ _ h => h, fun _ _ h => h⟩,
      ⟨fun f h => (by cases h), fun f h => (by cases h)⟩, rfl⟩
  | [], _ :: _, _, _, h, _, _ => by cases h
  | _ :: _, [], _, _, h, _, _ => by cases h
  | b :: bs, b' :: bs', n, n', h, hn, hn' => by
    obtain ⟨hb, hbs⟩ := rl_cons_inj h
    unfold Database.internBlocks
    refine SameOutcome.bind (SameOutcome.eq (intoString_congr hb)) ?_
    rintro s _ rfl
    refine SameOutcome.bind (internBlocks_same bs bs' (n.internFile s).2 (n'.internFile s).2 hbs (nodup_internFile s hn)
      (nodup_internFile s hn')) ?_
    rintro ⟨fs, m⟩ ⟨fs', m'⟩ ⟨⟨v, v'⟩, hd, ⟨e, e'⟩, ⟨k, k'⟩, hs⟩
    have r := e _ _ (resolveFile_internFile' n s)
    have r' := e' _ _ (resolveFile_internFile' n' s)
    refine ⟨⟨v, v'⟩, hd, ⟨(internFile_ext n s).trans e, (internFile_ext n' s).trans e'⟩, ⟨?_, ?_⟩, ?_⟩
    · intro f hf
      rcases List.mem_cons.mp hf with rfl | hf
      · exact ⟨s, r⟩
      · exact k f hf
    · intro f hf
      rcases List.mem_cons.mp hf with rfl | hf
      · exact ⟨s, r'⟩
      · exact k' f hf
    · show m.resolveFile _ :: fs.map m.resolveFile = m'.resolveFile _ :: fs'.map m'.resolveFile
      have hs' : fs.map m.resolveFile = fs'.map m'.resolveFile := hs
      rw [hs']
      congr 1
      exact r.trans r'.symm

theorem fileName_of_internFile {n : NameCache} (hn : n.files.strings.Nodup) (s : Str) :
    (n.internFile s).2.fileName s = some (n.internFile s).1 :=
  (files_fileName_iff (nodup_internFile s hn) _ _).mpr (resolveFile_internFile' n s)

/-- Storing a rule under a known handle. -/
theorem St.FilesKnown.insertRule {st : St} (hk : st.FilesKnown) {f : FileName} {s : Str} (hf : st.names.resolveFile f = some s)
    {r : Rule} (h1 : ∃ t, st.names.resolveFile r.targetFname = some t)
    (h2 : ∀ d ∈ r.depNames, ∃ t, st.names.resolveFile d = some t) :
    St.FilesKnown { st with db := { st.db with rules := st.db.rules.insert f r } } := by
  refine ⟨hk.nodup, fun f' r' hr => ?_, hk.targetVariables⟩
  have hr' : (st.db.rules.insert f r).get f' = some r' := hr
  rw [AMap.get_insert] at hr'
  split at hr'
  · rename_i e
    injection hr' with hr'
    subst hr' e
    exact ⟨⟨s, hf⟩, h1, h2⟩
  · exact hk.rules f' r' hr'

theorem ruleNamed_insert {st : St} (hk : st.FilesKnown) {f : FileName} {s : Str} (hf : st.names.resolveFile f = some s)
    (r : Rule) (t : Str) :
    St.ruleNamed { st with db := { st.db with rules := st.db.rules.insert f r } } t =
      if t = s then some r else st.ruleNamed t := by
  unfold St.ruleNamed
  have hfs := (files_fileName_iff hk.nodup s f).mpr hf
  split
  · rename_i e
    subst e
    show (st.names.fileName t).bind _ = _
    rw [hfs]
    exact AMap.get_insert_self _ _ _
  · rename_i e
    cases hx : st.names.fileName t with
    | none => rfl
    | some f' =>
      refine AMap.get_insert_ne _ _ ?_
      rintro rfl
      have := (files_fileName_iff hk.nodup _ _).mp hx
      rw [hf] at this
      injection this with this
      exact e this.symm

theorem StRel.insertRule {st st' : St} (h : StRel g st st') {f f' : FileName} {s : Str} (hf : st.names.resolveFile f = some s)
    (hf' : st'.names.resolveFile f' = some s) {r r' : Rule} (h1 : ∃ t, st.names.resolveFile r.targetFname = some t)
    (h2 : ∀ d ∈ r.depNames, ∃ t, st.names.resolveFile d = some t)
    (h1' : ∃ t, st'.names.resolveFile r'.targetFname = some t)
    (h2' : ∀ d ∈ r'.depNames, ∃ t, st'.names.resolveFile d = some t)
    (hv : r.named g st.names = r'.named g st'.names) :
    StRel g { st with db := { st.db with rules := st.db.rules.insert f r } }
      { st' with db := { st'.db with rules := st'.db.rules.insert f' r' } } := by
  refine ⟨⟨h.same.commandChar, h.same.names, h.same.variables, h.same.targetVariables, fun t => ?_⟩,
    St.FilesKnown.insertRule h.left hf h1 h2, St.FilesKnown.insertRule h.right hf' h1' h2'⟩
  rw [ruleNamed_insert h.left hf, ruleNamed_insert h.right hf']
  split
  · exact congrArg some hv
  · exact h.same.rules t

/-- The two states together with the dependency names known in them. -/
structure DepsKnown (dn : List FileName) (n : NameCache) (dn' : List FileName) (n' : NameCache) : Prop where
  left : ∀ f ∈ dn, ∃ t, n.resolveFile f = some t
  right : ∀ f ∈ dn', ∃ t, n'.resolveFile f = some t
  same : dn.map n.resolveFile = dn'.map n'.resolveFile

theorem DepsKnown.extend {dn dn' : List FileName} {n n' m m' : NameCache} (h : DepsKnown dn n dn' n') (e : n.Ext m)
    (e' : n'.Ext m') : DepsKnown dn m dn' m' := by
  have l : dn.map m.resolveFile = dn.map n.resolveFile := List.map_congr_left fun f hf => by
    obtain ⟨t, ht⟩ := h.left f hf
    rw [ht, e _ _ ht]
  have r : dn'.map m'.resolveFile = dn'.map n'.resolveFile := List.map_congr_left fun f hf => by
    obtain ⟨t, ht⟩ := h.right f hf
    rw [ht, e' _ _ ht]
  refine ⟨fun f hf => ?_, fun f hf => ?_, by rw [l, r, h.same]⟩
  · obtain ⟨t, ht⟩ := h.left f hf
    exact ⟨t, e _ _ ht⟩
  · obtain ⟨t, ht⟩ := h.right f hf
    exact ⟨t, e' _ _ ht⟩

/-- The rule that is stored, given the one stored before. -/
def storedRule (old : Option Rule) (fresh : Rule) : Rule :=
  if fresh.recipe.isEmpty then
    match old with
    | some r => { r with deps := r.deps ++ fresh.deps, depNames := fresh.depNames.foldl Database.setInsert r.depNames }
    | none => fresh
  else fresh

theorem protoTargets_cons (deps : List Block) (dn : List FileName) (recipe : List Ast) (ty : RuleType) (t : Block)
    (ts : List Block) (db : Database) (n : NameCache) :
    Database.protoTargets deps dn recipe ty (t :: ts) db n = t.intoString >>= fun s =>
      Database.protoTargets deps dn recipe ty ts { db with rules := db.rules.insert (n.internFile s).1 (storedRule
        (db.rules.get (n.internFile s).1) ⟨t, (n.internFile s).1, deps, dn, recipe, ty⟩) } (n.internFile s).2 := rfl

/-- The handles in a rule are known. -/
structure Rule.Known (n : NameCache) (r : Rule) : Prop where
  target : ∃ t, n.resolveFile r.targetFname = some t
  deps : ∀ d ∈ r.depNames, ∃ t, n.resolveFile d = some t

theorem storedRule_known {n : NameCache} {old : Option Rule} {fresh : Rule} (ho : ∀ r, old = some r → r.Known n)
    (hf : fresh.Known n) : (storedRule old fresh).Known n := by
  unfold storedRule
  split
  · cases old with
    | none => exact hf
    | some r =>
      have hr := ho r rfl
      refine ⟨hr.target, fun d hdm => ?_⟩
      rcases (Database.mem_foldl_setInsert fresh.depNames r.depNames d).mp hdm with hm | hm
      · exact hr.deps d hm
      · exact hf.deps d hm
  · exact hf

theorem storedRule_view {n n' : NameCache} (hn : n.files.strings.Nodup) (hn' : n'.files.strings.Nodup) {old old' : Option Rule}
    {fresh fresh' : Rule} (ho : old.map (Rule.named g n) = old'.map (Rule.named g n')) (hk : fresh.Known n) (hk' : fresh'.Known n')
    (hv : fresh.named g n = fresh'.named g n') :
    (storedRule old fresh).named g n = (storedRule old' fresh').named g n' := by
  have p3 := congrArg NamedRule.deps hv
  have p4 := congrArg NamedRule.depNames hv
  have p5 := congrArg NamedRule.recipe hv
  simp only [Rule.named] at p3 p4 p5
  have hempty : fresh.recipe.isEmpty = fresh'.recipe.isEmpty := by
    cases h1 : fresh.recipe <;> cases h2 : fresh'.recipe <;> rw [h1, h2] at p5 <;> first | rfl | cases p5
  unfold storedRule
  rw [hempty]
  split
  · cases old with
    | none => cases old' with
      | none => exact hv
      | some r' => cases ho
    | some r => cases old' with
      | none => cases ho
      | some r' =>
        have hrv : r.named g n = r'.named g n' := Option.some.inj ho
        have q1 := congrArg NamedRule.name hrv
        have q2 := congrArg NamedRule.target hrv
        have q3 := congrArg NamedRule.deps hrv
        have q4 := congrArg NamedRule.depNames hrv
        have q5 := congrArg NamedRule.recipe hrv
        have q6 := congrArg NamedRule.ruleType hrv
        simp only [Rule.named] at q1 q2 q3 q4 q5 q6 ⊢
        rw [foldl_setInsert_names hn _ hk.deps, foldl_setInsert_names hn' _ hk'.deps, q1, q2, q4, q5, q6, p4,
          List.map_append, List.map_append, q3, p3]
  · exact hv

theorem protoTargets_same {deps deps' : List Block} (hdeps : rl g deps = rl g deps') {dn dn' : List FileName}
    {recipe recipe' : List Ast} (hrec : rl g recipe = rl g recipe') (ty : RuleType) (c c' : Char) :
    ∀ (ts ts' : List Block) (db db' : Database) (n n' : NameCache), rl g ts = rl g ts' → DepsKnown dn n dn' n' →
      StRel g ⟨db, n, c⟩ ⟨db', n', c'⟩ →
      SameOutcome (fun x x' => StRel g ⟨x.1, x.2, c⟩ ⟨x'.1, x'.2, c'⟩)
        (Database.protoTargets deps dn recipe ty ts db n) (Database.protoTargets deps' dn' recipe' ty ts' db' n')
  | [], [], _, _, _, _, _, _, h => h
  | [], _ :: _, _, _, _, _, e, _, _ => by cases e
  | _ :: _, [], _, _, _, _, e, _, _ => by cases e
  | t :: ts, t' :: ts', db, db', n, n', e, hd, h => by
    obtain ⟨ht, hts⟩ := rl_cons_inj e
    rw [protoTargets_cons, protoTargets_cons]
    refine SameOutcome.bind (SameOutcome.eq (intoString_congr ht)) ?_
    rintro s _ rfl
    have h2 : StRel g ⟨db, (n.internFile s).2, c⟩ ⟨db', (n'.internFile s).2, c'⟩ := h.internFiles s s
    have hd2 := hd.extend (internFile_ext n s) (internFile_ext n' s)
    have hf := resolveFile_internFile' n s
    have hf' := resolveFile_internFile' n' s
    refine protoTargets_same hdeps hrec ty c c' ts ts' _ _ _ _ hts hd2 ?_
    have k : (Rule.mk t (n.internFile s).1 deps dn recipe ty).Known (n.internFile s).2 := ⟨⟨s, hf⟩, hd2.left⟩
    have k' : (Rule.mk t' (n'.internFile s).1 deps' dn' recipe' ty).Known (n'.internFile s).2 := ⟨⟨s, hf'⟩, hd2.right⟩
    have hview : (Rule.mk t (n.internFile s).1 deps dn recipe ty).named g (n.internFile s).2 =
        (Rule.mk t' (n'.internFile s).1 deps' dn' recipe' ty).named g (n'.internFile s).2 := by
      have e1 : Block.mapLoc g t = Block.mapLoc g t' := ht
      have e2 : deps.map (Block.mapLoc g) = deps'.map (Block.mapLoc g) := hdeps
      have e3 : recipe.map (Ast.mapLoc g) = recipe'.map (Ast.mapLoc g) := hrec
      simp only [Rule.named]
      rw [hf, hf', hd2.same, e1, e2, e3]
    have l1 : St.ruleNamed ⟨db, (n.internFile s).2, c⟩ s = db.rules.get (n.internFile s).1 := by
      show ((n.internFile s).2.fileName s).bind _ = _
      rw [fileName_of_internFile h.left.nodup]
      rfl
    have l2 : St.ruleNamed ⟨db', (n'.internFile s).2, c'⟩ s = db'.rules.get (n'.internFile s).1 := by
      show ((n'.internFile s).2.fileName s).bind _ = _
      rw [fileName_of_internFile h.right.nodup]
      rfl
    have hrule := h2.same.rules s
    rw [l1, l2] at hrule
    have o := storedRule_known (n := (n.internFile s).2) (old := db.rules.get (n.internFile s).1)
      (fun r hr => ⟨(h2.left.rules _ r hr).2.1, (h2.left.rules _ r hr).2.2⟩) k
    have o' := storedRule_known (n := (n'.internFile s).2) (old := db'.rules.get (n'.internFile s).1)
      (fun r hr => ⟨(h2.right.rules _ r hr).2.1, (h2.right.rules _ r hr).2.2⟩) k'
    exact StRel.insertRule h2 hf hf' o.target o.deps o'.target o'.deps
      (storedRule_view h2.left.nodup h2.right.nodup hrule k k' hview)

instance : Reloc ProtoRule := ⟨fun g r => ⟨rl g r.targets, rl g r.deps, rl g r.recipe, r.ruleType⟩⟩

theorem fromProtorule_same {st st' : St} (h : StRel g st st') {r r' : ProtoRule} (hr : rl g r = rl g r') :
    SameOutcome (fun x x' => StRel g { st with db := x.1, names := x.2 } { st' with db := x'.1, names := x'.2 })
      (st.db.fromProtorule st.names r) (st'.db.fromProtorule st'.names r') := by
  have h1 : rl g r.targets = rl g r'.targets := congrArg ProtoRule.targets hr
  have h2 : rl g r.deps = rl g r'.deps := congrArg ProtoRule.deps hr
  have h3 : rl g r.recipe = rl g r'.recipe := congrArg ProtoRule.recipe hr
  have h4 : r.ruleType = r'.ruleType := (congrArg ProtoRule.ruleType hr : (rl g r).ruleType = (rl g r').ruleType)
  unfold Database.fromProtorule
  refine SameOutcome.bind (internBlocks_same _ _ _ _ h2 h.left.nodup h.right.nodup) ?_
  rintro ⟨fs, m⟩ ⟨fs', m'⟩ ⟨⟨v, v'⟩, ⟨hn, hn'⟩, ⟨e, e'⟩, ⟨k, k'⟩, hs⟩
  dsimp only at v v' hn hn' e e' k k' hs
  obtain ⟨k1, s1⟩ := h.left.extend (g := g) v hn e
  obtain ⟨k2, s2⟩ := h.right.extend (g := g) v' hn' e'
  rw [h4]
  refine protoTargets_same (dn := fs.foldl Database.setInsert []) (dn' := fs'.foldl Database.setInsert []) h2 h3 _ st.commandChar
    st'.commandChar _ _ _ _ _ _ h1 ⟨?_, ?_, ?_⟩ ⟨s1.symm.trans (h.same.trans s2), k1, k2⟩
  · intro f hf
    rcases (Database.mem_foldl_setInsert _ _ _).mp hf with hm | hm
    · cases hm
    · exact k f hm
  · intro f hf
    rcases (Database.mem_foldl_setInsert _ _ _).mp hf with hm | hm
    · cases hm
    · exact k' f hm
  · rw [foldl_setInsert_names hn _ k, foldl_setInsert_names hn' _ k', hs]
    rfl

end Hastur
