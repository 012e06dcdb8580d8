/-
What the decoder makes of files: exactness (C81), writing, the depth of terms, tags of variables, repeated declarations, and what is proved of a problem.
-/
import Verif.SqJsonDump
import Verif.SqProblem

set_option linter.unusedSimpArgs false
set_option maxRecDepth 100000

namespace CV
namespace Sq

/-! ### Reading -/

/-- C81. What is read is what is written; what is written is read unless it is nested deeper than 127. -/
theorem C81_reads_partial (j : Json) : (∀ r, decode j = some r → WCall r j) ∧ (j.depth < 128 → ∀ r, decode j = some r ↔ WCall r j) :=
  ⟨fun _ h => reads_call.sound h, fun hd _ => ⟨fun h => reads_call.sound h, fun h => reads_call.complete h hd⟩⟩

/-- C81. The format is not ambiguous: no value is that of two files. -/
theorem C81_unique (j : Json) (r r' : Raw) (h : WCall r j) (h' : WCall r' j) : r = r' := by
  have e := reads_call.complete h (Nat.lt_succ_self _)
  rw [reads_call.complete h' (Nat.lt_succ_self _)] at e
  cases e
  rfl

/-! ### Writing -/

/-- SPECIFICATION. A structure, written as an object. -/
def fj (names : List String) (vs : List Json) : Json := .obj (names.zip vs)

theorem once_zip : ∀ (names : List String) (vs : List Json) (pre : List (String × Json)), names.Nodup → names.length = vs.length →
    (∀ e ∈ pre, e.1 ∉ names) → List.Forall₂ (Once (pre ++ names.zip vs)) names vs
  | [], [], _, _, _, _ => .nil
  | k :: ns, v :: vs, pre, hn, hl, hp => by
    rw [List.nodup_cons] at hn
    refine .cons ⟨pre, ns.zip vs, rfl, fun e he h => hp e he (by simp [h]), ?_⟩ ?_
    · intro e he h
      have := (List.of_mem_zip he).1
      rw [h] at this
      exact hn.1 this
    · have := once_zip ns vs (pre ++ [(k, v)]) hn.2 (by simpa using hl) (by
        intro e he
        rcases List.mem_append.1 he with he | he
        · intro h
          exact hp e he (by simp [h])
        · simp only [List.mem_singleton] at he
          subst he
          exact hn.1)
      simpa using this

theorem fj_obj {names : List String} {vs : List Json} (hn : names.Nodup) (hl : names.length = vs.length) : ObjOf names vs (fj names vs) :=
  ⟨_, rfl, by simpa using once_zip names vs [] hn hl (by simp)⟩

theorem fj_fields {names : List String} {vs : List Json} (hn : names.Nodup) (hl : names.length = vs.length) : Fields names vs (fj names vs) :=
  .inl (fj_obj hn hl)

/-- SPECIFICATION. Symbols that can be written. -/
def OkSym (s : String) : Prop := s = "$dummy" ∨ ∀ c ∈ s.toList, c ∉ [';', '$', '#']

/-- SPECIFICATION. Paths that can be written. -/
def OkPath (p : Path) : Prop := (∀ s ∈ p.npath, OkSym s) ∧ OkSym p.symb

/-- Writes a path. -/
def ePath (p : Path) : Json := fj ["npath", "symb"] [fj ["npath"] [.arr (p.npath.map .str)], .str p.symb]

mutual
/-- Writes a type. -/
def eTy : JTy → Json
  | .message => .str "Message"
  | .boolean => .str "Boolean"
  | .index => .str "Index"
  | .timestamp => .str "Timestamp"
  | .name => .str "Name"
  | .tbase p => .obj [("TBase", ePath p)]
  | .tuple els => .obj [("Tuple", fj ["elements"] [.arr (eTys els)])]
  | .unsupported => .obj [("TVar", fj ["name"] [.str "a"])]
/-- Writes types. -/
def eTys : List JTy → List Json
  | [] => []
  | t :: l => eTy t :: eTys l
end

mutual
/-- SPECIFICATION. Types that can be written. -/
def OkTy : JTy → Prop
  | .tbase p => OkPath p
  | .tuple els => OkTys els
  | _ => True
/-- SPECIFICATION. The same, of several. -/
def OkTys : List JTy → Prop
  | [] => True
  | t :: l => OkTy t ∧ OkTys l
end

/-- Writes a variable. -/
def eVar (v : JVar) : Json := fj ["id", "ty"] [fj ["name"] [.str v.name], eTy v.sort]

/-- SPECIFICATION. Variables that can be written. -/
def OkVar (v : JVar) : Prop := OkSym v.name ∧ OkTy v.sort

/-- Writes a symbol with its type. -/
def eISymb (p : Path) : Json := fj ["s_symb", "s_typ"] [ePath p, .str "Message"]

mutual
/-- Writes a term. -/
def eTm : JT → Json
  | .app f args => .obj [("App", fj ["f", "args"] [eTm f, .arr (eTms args)])]
  | .fun_ p => .obj [("Fun", fj ["symb"] [ePath p])]
  | .name p args => .obj [("Name", fj ["symb", "args"] [eISymb p, .arr (eTms args)])]
  | .mac p args ts => .obj [("Macro", fj ["symb", "args", "timestamp"] [eISymb p, .arr (eTms args), eTm ts])]
  | .action p args => .obj [("Action", fj ["symb", "args"] [ePath p, .arr (eTms args)])]
  | .var v => .obj [("Var", eVar v)]
  | .letin v d b => .obj [("Let", fj ["var", "decl", "body"] [eTm v, eTm d, eTm b])]
  | .tuple els => .obj [("Tuple", fj ["elements"] [.arr (eTms els)])]
  | .proj i b => .obj [("Proj", fj ["id", "body"] [.int i, eTm b])]
  | .diff ts => .obj [("Diff", fj ["terms"] [.arr (eDs ts)])]
  | .find vs c s f => .obj [("Find", fj ["vars", "condition", "success", "faillure"] [.arr (eTms vs), eTm c, eTm s, eTm f])]
  | .quant q vs b => .obj [("Quant", fj ["quantificator", "vars", "body"] [.str (quantName q), .arr (eTms vs), eTm b])]
/-- Writes terms. -/
def eTms : List JT → List Json
  | [] => []
  | t :: l => eTm t :: eTms l
/-- Writes the branches of a `diff`. -/
def eDs : List (String × JT) → List Json
  | [] => []
  | t :: l => eD t :: eDs l
/-- Writes a branch of a `diff`. -/
def eD : String × JT → Json
  | (s, t) => fj ["proj", "term"] [.str s, eTm t]
end

mutual
/-- SPECIFICATION. Terms that can be written. -/
def OkTm : JT → Prop
  | .app f args => OkTm f ∧ OkTms args
  | .fun_ p => OkPath p
  | .name p args => OkPath p ∧ OkTms args
  | .mac p args ts => OkPath p ∧ OkTms args ∧ OkTm ts
  | .action p args => OkPath p ∧ OkTms args
  | .var v => OkVar v
  | .letin v d b => OkTm v ∧ OkTm d ∧ OkTm b
  | .tuple els => OkTms els
  | .proj i b => i < 256 ∧ OkTm b
  | .diff ts => OkDs ts
  | .find vs c s f => OkTms vs ∧ OkTm c ∧ OkTm s ∧ OkTm f
  | .quant _ vs b => OkTms vs ∧ OkTm b
/-- SPECIFICATION. The same, of several. -/
def OkTms : List JT → Prop
  | [] => True
  | t :: l => OkTm t ∧ OkTms l
/-- SPECIFICATION. The same, of the branches of a `diff`. -/
def OkDs : List (String × JT) → Prop
  | [] => True
  | t :: l => OkD t ∧ OkDs l
/-- SPECIFICATION. The same, of one of them. -/
def OkD : String × JT → Prop
  | (s, t) => OkSym s ∧ OkTm t
end

theorem w_map {α : Type} {W : α → Json → Prop} {e : α → Json} : ∀ {l : List α}, (∀ x ∈ l, W x (e x)) → List.Forall₂ W l (l.map e)
  | [], _ => .nil
  | x :: l, h => .cons (h x (by simp)) (w_map fun y hy => h y (by simp [hy]))

theorem w_arr {α : Type} {W : α → Json → Prop} {e : α → Json} {l : List α} (h : ∀ x ∈ l, W x (e x)) : ArrOf W l (.arr (l.map e)) := ⟨_, rfl, w_map h⟩

theorem w_sym {s : String} (h : OkSym s) : SymbOf s (.str s) := ⟨rfl, h⟩

theorem w_path {p : Path} (h : OkPath p) : PathOf p (ePath p) :=
  ⟨_, _, _, fj_fields (by decide) rfl, fj_fields (by decide) rfl, w_arr fun s hs => w_sym (h.1 s hs), w_sym h.2⟩

mutual
theorem w_ty : ∀ (t : JTy), OkTy t → WTy t (eTy t)
  | .message, _ => .message _ (.inl rfl)
  | .boolean, _ => .boolean _ (.inl rfl)
  | .index, _ => .index _ (.inl rfl)
  | .timestamp, _ => .timestamp _ (.inl rfl)
  | .name, _ => .name _ (.inl rfl)
  | .tbase p, h => .tbase p _ _ rfl (w_path (by simpa [OkTy] using h))
  | .tuple els, h => .tuple els _ _ _ rfl (fj_fields (by decide) rfl) (w_tys els (by simpa [OkTy] using h))
  | .unsupported, _ => .tvar _ _ "a" _ rfl (fj_obj (by decide) rfl) (w_sym (.inr (by decide)))
theorem w_tys : ∀ (l : List JTy), OkTys l → List.Forall₂ WTy l (eTys l)
  | [], _ => .nil
  | t :: l, h => by
    simp only [OkTys] at h
    exact .cons (w_ty t h.1) (w_tys l h.2)
end

theorem w_var {v : JVar} (h : OkVar v) : WVar v (eVar v) :=
  ⟨_, _, _, fj_fields (by decide) rfl, fj_fields (by decide) rfl, w_sym h.1, w_ty _ h.2⟩

theorem w_isymb {p : Path} (h : OkPath p) : WISymb p (eISymb p) :=
  ⟨_, _, _, fj_fields (by decide) rfl, w_path h, .message _ (.inl rfl)⟩

mutual
theorem w_tm : ∀ (t : JT), OkTm t → WTm t (eTm t)
  | .app f args, h => by
    simp only [OkTm] at h
    exact .app _ _ _ _ _ _ rfl (fj_fields (by decide) rfl) (w_tm f h.1) (w_tms args h.2)
  | .fun_ p, h => by
    simp only [OkTm] at h
    exact .fun_ _ _ _ _ rfl (fj_fields (by decide) rfl) (w_path h)
  | .name p args, h => by
    simp only [OkTm] at h
    exact .name _ _ _ _ _ _ rfl (fj_fields (by decide) rfl) (w_isymb h.1) (w_tms args h.2)
  | .mac p args ts, h => by
    simp only [OkTm] at h
    exact .mac _ _ _ _ _ _ _ _ rfl (fj_fields (by decide) rfl) (w_isymb h.1) (w_tms args h.2.1) (w_tm ts h.2.2)
  | .action p args, h => by
    simp only [OkTm] at h
    exact .action _ _ _ _ _ _ rfl (fj_fields (by decide) rfl) (w_path h.1) (w_tms args h.2)
  | .var v, h => by
    simp only [OkTm] at h
    exact .var _ _ _ _ _ _ rfl (fj_obj (by decide) rfl) (fj_fields (by decide) rfl) (w_sym h.1) (w_ty _ h.2)
  | .letin v d b, h => by
    simp only [OkTm] at h
    exact .letin _ _ _ _ _ _ _ _ rfl (fj_fields (by decide) rfl) (w_tm v h.1) (w_tm d h.2.1) (w_tm b h.2.2)
  | .tuple els, h => by
    simp only [OkTm] at h
    exact .tuple _ _ _ _ rfl (fj_fields (by decide) rfl) (w_tms els h)
  | .proj i b, h => by
    simp only [OkTm] at h
    exact .proj _ _ _ _ _ _ rfl (fj_fields (by decide) rfl) ⟨rfl, h.1⟩ (w_tm b h.2)
  | .diff ts, h => by
    simp only [OkTm] at h
    exact .diff _ _ _ _ rfl (fj_fields (by decide) rfl) (w_ds ts h)
  | .find vs c s f, h => by
    simp only [OkTm] at h
    exact .find _ _ _ _ _ _ _ _ _ _ rfl (fj_fields (by decide) rfl) (w_tms vs h.1) (w_tm c h.2.1) (w_tm s h.2.2.1) (w_tm f h.2.2.2)
  | .quant q vs b, h => by
    simp only [OkTm] at h
    exact .quant _ _ _ _ _ _ _ _ rfl (fj_fields (by decide) rfl) (.inl rfl) (w_tms vs h.1) (w_tm b h.2)
theorem w_tms : ∀ (l : List JT), OkTms l → List.Forall₂ WTm l (eTms l)
  | [], _ => .nil
  | t :: l, h => by
    simp only [OkTms] at h
    exact .cons (w_tm t h.1) (w_tms l h.2)
theorem w_ds : ∀ (l : List (String × JT)), OkDs l → List.Forall₂ WDiff l (eDs l)
  | [], _ => .nil
  | t :: l, h => by
    simp only [OkDs] at h
    exact .cons (w_d t h.1) (w_ds l h.2)
theorem w_d : ∀ (d : String × JT), OkD d → WDiff d (eD d)
  | (s, t), h => by
    simp only [OkD] at h
    exact .mk _ _ _ _ _ (fj_fields (by decide) rfl) (w_sym h.1) (w_tm t h.2)
end

/-- Writes a choice. -/
def eChoice (c : Nat × List JVar) : Json := .arr [.int c.1, .arr (c.2.map eVar)]

/-- Writes an action. -/
def eAct (a : JAct) : Json :=
  fj ["name", "action", "input", "indices", "condition", "updates", "output", "globals"]
    [ePath a.name, .arr (a.action.map fun i => fj ["par_choice", "sum_choice"] [eChoice i.par, eChoice i.sum]), ePath ⟨[], "ch"⟩, .arr (a.indices.map eVar),
      fj ["vars", "term"] [.arr (a.condVars.map eVar), eTm a.cond],
      .arr (a.updates.map fun u => fj ["symb", "args", "body"] [ePath u.symb, .arr (u.args.map eTm), eTm u.body]),
      fj ["channel", "term"] [ePath ⟨[], "ch"⟩, eTm a.output], .arr (a.globals.map ePath)]

/-- SPECIFICATION. Actions that can be written. -/
structure OkAct (a : JAct) : Prop where
  name : OkPath a.name
  flow : ∀ i ∈ a.action, (i.par.1 < 2 ^ 32 ∧ ∀ v ∈ i.par.2, OkVar v) ∧ i.sum.1 < 2 ^ 32 ∧ ∀ v ∈ i.sum.2, OkVar v
  indices : ∀ v ∈ a.indices, OkVar v
  condVars : ∀ v ∈ a.condVars, OkVar v
  cond : OkTm a.cond
  updates : ∀ u ∈ a.updates, OkPath u.symb ∧ (∀ t ∈ u.args, OkTm t) ∧ OkTm u.body
  output : OkTm a.output
  globals : ∀ p ∈ a.globals, OkPath p

theorem w_choice {c : Nat × List JVar} (h : c.1 < 2 ^ 32 ∧ ∀ v ∈ c.2, OkVar v) : WChoice (ArrOf WVar) c (eChoice c) :=
  ⟨_, _, rfl, ⟨rfl, h.1⟩, w_arr fun v hv => w_var (h.2 v hv)⟩

theorem ok_ch : OkPath ⟨[], "ch"⟩ := ⟨by simp, .inr (by decide)⟩

theorem w_act {a : JAct} (h : OkAct a) : WAct a (eAct a) :=
  ⟨_, _, _, _, _, _, _, _, _, fj_fields (by decide) rfl, w_path h.name,
    w_arr fun i hi => ⟨_, _, fj_fields (by decide) rfl, w_choice (h.flow i hi).1, w_choice (h.flow i hi).2⟩, w_path ok_ch, w_arr fun v hv => w_var (h.indices v hv),
    ⟨_, _, fj_fields (by decide) rfl, w_arr fun v hv => w_var (h.condVars v hv), w_tm _ h.cond⟩,
    w_arr fun u hu => ⟨_, _, _, fj_fields (by decide) rfl, w_path (h.updates u hu).1, w_arr fun t ht => w_tm t ((h.updates u hu).2.1 t ht), w_tm _ (h.updates u hu).2.2⟩,
    ⟨_, _, _, fj_fields (by decide) rfl, w_path ok_ch, w_tm _ h.output⟩, w_arr fun p hp => w_path (h.globals p hp)⟩

/-- Writes the type of a function. -/
def eFunTy (f : FunTy) : Json := fj ["vars", "args", "out"] [.arr (f.vars.map fun s => fj ["name"] [.str s]), .arr (f.args.map eTy), eTy f.out]

/-- SPECIFICATION. Types of functions that can be written. -/
def OkFunTy (f : FunTy) : Prop := (∀ s ∈ f.vars, OkSym s) ∧ (∀ t ∈ f.args, OkTy t) ∧ OkTy f.out

theorem w_funTy {f : FunTy} (h : OkFunTy f) : WFunTy f (eFunTy f) :=
  ⟨_, _, _, fj_fields (by decide) rfl, w_arr fun s hs => ⟨_, fj_obj (by decide) rfl, w_sym (h.1 s hs)⟩, w_arr fun t ht => w_ty t (h.2.1 t ht), w_ty _ h.2.2⟩

/-- Writes an abstract definition. -/
def eAbs (k : String) (ps : List Path) : Json := fj ["abstract_def", "associated_fun"] [.str k, .arr (ps.map ePath)]

/-- Writes a definition. -/
def eDef : OpDef → Json
  | .hash ps => eAbs "Hash" ps
  | .senc ps => eAbs "SEnc" ps
  | .checkSign ps => eAbs "CheckSign" ps
  | .other ps => eAbs "PublicKey" ps
  | .concrete args body => fj ["name", "type_variables", "args", "out_type", "body"] [.str "f", .arr [], .arr (args.map eVar), .str "Message", eTm body]

/-- SPECIFICATION. Definitions that can be written. -/
def OkDef : OpDef → Prop
  | .hash ps | .senc ps | .checkSign ps | .other ps => ∀ p ∈ ps, OkPath p
  | .concrete args body => (∀ v ∈ args, OkVar v) ∧ OkTm body

theorem w_abs {k : String} {ps : List Path} {f : List Path → OpDef} (h : ∀ p ∈ ps, OkPath p) (hk : WAbs f (.str k)) : WAbstract (f ps) (eAbs k ps) :=
  ⟨_, _, f, ps, fj_obj (by decide) rfl, hk, w_arr fun p hp => w_path (h p hp), rfl⟩

theorem w_def : ∀ {o : OpDef}, OkDef o → WDef o (eDef o)
  | .hash ps, h => .inl (w_abs h (.hash _ (.inl rfl)))
  | .senc ps, h => .inl (w_abs h (.senc _ (.inl rfl)))
  | .checkSign ps, h => .inl (w_abs h (.checkSign _ (.inl rfl)))
  | .other ps, h => .inl (w_abs h (.other "PublicKey" _ (by simp) (.inl rfl)))
  | .concrete args body, h => by
    refine .inr ⟨⟨_, _, _, _, _, "f", [], args, .message, body, fj_fields (by decide) rfl, w_sym (.inr (by decide)), ⟨_, rfl, .nil⟩, w_arr fun v hv => w_var (h.1 v hv),
      .message _ (.inl rfl), w_tm _ h.2, rfl⟩, ?_⟩
    rintro o' ⟨a, l, f, ps, ⟨l', h1, h2⟩, _⟩
    cases h1
    cases h2 with
    | cons g _ =>
      obtain ⟨pre, post, g1, _⟩ := g
      have : ("abstract_def", a) ∈ [("name", Json.str "f"), ("type_variables", .arr []), ("args", .arr (args.map eVar)), ("out_type", .str "Message"), ("body", eTm body)] := by
        have e : ("abstract_def", a) ∈ pre ++ ("abstract_def", a) :: post := by simp
        rw [← g1] at e
        exact e
      simp at this

/-- Writes a macro. -/
def eMac : MacDef → Json
  | .protocol => .obj [("General", .str "Output")]
  | .structured => .obj [("General", fj ["name", "default", "tinit", "body", "rec_ty", "ty"] [ePath ⟨[], "ch"⟩, eTm (.fun_ ⟨[], "ch"⟩), eTm (.fun_ ⟨[], "ch"⟩),
      fj ["body", "var"] [eTm (.fun_ ⟨[], "ch"⟩), eVar ⟨"ch", .message⟩], .str "Message", .str "Message"])]
  | .global inputs indices ts body => .obj [("Global", fj ["arity", "type", "data"] [.int 0, .str "Message",
      fj ["action", "inputs", "indices", "ts", "ty", "body"] [fj ["kind", "shape"] [.str "Large", .arr []], .arr (inputs.map eVar), .arr (indices.map eVar), eVar ts,
        .str "Message", eTm body]])]
  | .state sort vars => .obj [("State", fj ["arity", "type", "init"] [.int 0, eTy sort, fj ["vars", "init"] [.arr (vars.map eVar), eTm (.fun_ ⟨[], "ch"⟩)]])]

/-- SPECIFICATION. Macros that can be written. -/
def OkMac : MacDef → Prop
  | .protocol | .structured => True
  | .global inputs indices ts body => (∀ v ∈ inputs, OkVar v) ∧ (∀ v ∈ indices, OkVar v) ∧ OkVar ts ∧ OkTm body
  | .state sort vars => OkTy sort ∧ ∀ v ∈ vars, OkVar v

theorem ok_chT : OkTm (.fun_ ⟨[], "ch"⟩) := by simpa only [OkTm] using ok_ch

theorem w_msg : WTy .message (.str "Message") := .message _ (.inl rfl)

theorem w_mac : ∀ {m : MacDef}, OkMac m → WMac m (eMac m)
  | .protocol, _ => .protocol _ _ rfl (.inl (.inl rfl))
  | .structured, _ => .structured _ _ rfl ⟨_, _, _, _, _, _, _, _, _, _, _, fj_fields (by decide) rfl, w_path ok_ch, w_tm _ ok_chT, w_tm _ ok_chT,
      ⟨_, _, _, _, fj_fields (by decide) rfl, w_tm _ ok_chT, w_var ⟨.inr (by decide), trivial⟩⟩, w_msg, w_msg⟩
  | .global inputs indices ts body, h => .global _ _ _ _ _ _ _ _ 0 _ _ _ _ _ _ _ _ _ rfl (fj_fields (by decide) rfl) ⟨rfl, by decide⟩ w_msg
      (fj_fields (by decide) rfl) ⟨_, _, [], fj_fields (by decide) rfl, .inl (.inl rfl), ⟨_, rfl, .nil⟩⟩ (w_arr fun v hv => w_var (h.1 v hv))
      (w_arr fun v hv => w_var (h.2.1 v hv)) (w_var h.2.2.1) w_msg (w_tm _ h.2.2.2)
  | .state sort vars, h => .state _ _ _ _ _ _ 0 _ _ _ _ rfl (fj_fields (by decide) rfl) ⟨rfl, by decide⟩ (w_ty _ h.1) (fj_fields (by decide) rfl)
      (w_arr fun v hv => w_var (h.2 v hv)) (w_tm _ ok_chT)

/-- Writes an entry of a table. -/
def eEnt {α : Type} (e : α → Json) (x : Path × α) : Json := fj ["symb", "data"] [ePath x.1, e x.2]

theorem w_ent {α : Type} {W : α → Json → Prop} {e : α → Json} {x : Path × α} (h1 : OkPath x.1) (h2 : W x.2 (e x.2)) : WContent W x (eEnt e x) :=
  ⟨_, _, fj_fields (by decide) rfl, w_path h1, h2⟩

/-- Writes a file. -/
def eDump (r : Raw) : Json :=
  fj ["query", "hypotheses", "variables", "actions", "names", "operators", "macros", "types"]
    [eTm r.query, .arr (r.hyps.map eTm), .arr (r.vars.map eVar), .arr (r.actions.map eAct), .arr (r.names.map (eEnt eFunTy)),
      .arr (r.ops.map (eEnt fun o => fj ["type", "def"] [eFunTy o.sort, eDef o.defn])), .arr (r.macs.map (eEnt eMac)),
      .arr (r.types.map (eEnt fun l => .arr (l.map fun k => .str (kindName k))))]

/-- Writes a call. -/
def eCall (r : Raw) : Json := fj ["parameters", "context"] [fj ["num_retry", "timeout"] [.int 5, .float], eDump r]

/-- SPECIFICATION. Files that can be written: symbols do not contain `;`, `$` or `#`, numbers are not too large. -/
structure OkRaw (r : Raw) : Prop where
  query : OkTm r.query
  hyps : ∀ t ∈ r.hyps, OkTm t
  vars : ∀ v ∈ r.vars, OkVar v
  actions : ∀ a ∈ r.actions, OkAct a
  names : ∀ e ∈ r.names, OkPath e.1 ∧ OkFunTy e.2
  ops : ∀ e ∈ r.ops, OkPath e.1 ∧ OkFunTy e.2.sort ∧ OkDef e.2.defn
  macs : ∀ e ∈ r.macs, OkPath e.1 ∧ OkMac e.2
  types : ∀ e ∈ r.types, OkPath e.1

/-- C81. Every file can be written, and what is written is read again as that file unless it is nested too deep. -/
theorem C81_roundtrip_partial (r : Raw) (h : OkRaw r) : WCall r (eCall r) ∧ ((eCall r).depth < 128 → decode (eCall r) = some r) := by
  have hw : WCall r (eCall r) :=
    ⟨_, _, _, _, 5, fj_fields (by decide) rfl, fj_fields (by decide) rfl, ⟨rfl, by decide⟩, .inr rfl, _, _, _, _, _, _, _, _, fj_fields (by decide) rfl,
      w_tm _ h.query, w_arr fun t ht => w_tm t (h.hyps t ht), w_arr fun v hv => w_var (h.vars v hv), w_arr fun a ha => w_act (h.actions a ha),
      w_arr fun e he => w_ent (h.names e he).1 (w_funTy (h.names e he).2),
      w_arr fun e he => w_ent (h.ops e he).1 ⟨_, _, fj_fields (by decide) rfl, w_funTy (h.ops e he).2.1, w_def (h.ops e he).2.2⟩,
      w_arr fun e he => w_ent (h.macs e he).1 (w_mac (h.macs e he).2),
      w_arr fun e he => w_ent (h.types e he) (w_arr fun k _ => .inl rfl)⟩
  exact ⟨hw, fun hd => ((C81_reads_partial _).2 hd r).2 hw⟩

/-! ### The depth of terms -/

mutual
/-- SPECIFICATION. A lower bound of how deep the JSON value of a term is nested: a term is an object in an object, and its arguments are in an array. -/
def nest : JT → Nat
  | .app f args => max (nest f + 2) (nestL args + 3)
  | .fun_ _ => 2
  | .name _ args => nestL args + 3
  | .mac _ args ts => max (nestL args + 3) (nest ts + 2)
  | .action _ args => nestL args + 3
  | .var _ => 2
  | .letin v d b => max (max (nest v) (nest d)) (nest b) + 2
  | .tuple els => nestL els + 3
  | .proj _ b => nest b + 2
  | .diff ts => nestD ts + 3
  | .find vs c s f => max (nestL vs + 3) (max (max (nest c) (nest s)) (nest f) + 2)
  | .quant _ vs b => max (nestL vs + 3) (nest b + 2)
/-- SPECIFICATION. The same, of several terms. -/
def nestL : List JT → Nat
  | [] => 0
  | t :: l => max (nest t) (nestL l)
/-- SPECIFICATION. The same, of the branches of a `diff`. -/
def nestD : List (String × JT) → Nat
  | [] => 0
  | t :: l => max (nestP t) (nestD l)
/-- SPECIFICATION. The same, of one of them. -/
def nestP : String × JT → Nat
  | (_, t) => nest t + 1
end

theorem nestL_lt {n : Nat} (hn : 0 < n) : ∀ {l : List JT}, (∀ t ∈ l, nest t < n) → nestL l < n
  | [], _ => by simpa [nestL] using hn
  | t :: l, h => by
    have h1 := h t (by simp)
    have h2 := nestL_lt hn (l := l) fun t ht => h t (by simp [ht])
    simp only [nestL]
    omega

theorem nestD_lt {n : Nat} (hn : 0 < n) : ∀ {l : List (String × JT)}, (∀ t ∈ l, nestP t < n) → nestD l < n
  | [], _ => by simpa [nestD] using hn
  | t :: l, h => by
    have h1 := h t (by simp)
    have h2 := nestD_lt hn (l := l) fun t ht => h t (by simp [ht])
    simp only [nestD]
    omega

theorem forall2_left {α β : Type} {R : α → β → Prop} {P : α → Prop} {l : List α} {r : List β} (h : List.Forall₂ R l r) (hp : ∀ a b, R a b → P a) : ∀ a ∈ l, P a := by
  induction h with
  | nil => simp
  | cons h _ ih =>
    intro a ha
    rcases List.mem_cons.1 ha with rfl | ha
    · exact hp _ _ h
    · exact ih a ha

theorem nest_bound : ∀ (n : Nat) (j : Json) (a : JT), dTerm n j = some a → nest a < n := by
  intro n
  induction n using Nat.strongRecOn with
  | ind n ih =>
    intro j a h
    match n, ih, h with
    | 0, _, h => cases h
    | 1, _, h => cases h
    | 2, _, h => cases h
    | n + 3, ih, h =>
      have i1 := ih (n + 1) (by omega)
      have i0 : ∀ {j as}, dArr (n + 1) (dTerm n) j = some as → nestL as < n := by
        intro j as h
        obtain ⟨h1, l, rfl, h2⟩ := (dArr_iff ..).1 h
        exact nestL_lt (by omega) (forall2_left h2 fun a b hab => ih n (by omega) b a hab)
      unfold dTerm at h
      split at h
      · split at h
        · simp only [Option.bind_eq_some_iff, Option.map_eq_some_iff] at h
          obtain ⟨f', h2, l', h3, rfl⟩ := h
          have := i1 _ _ h2
          have := i0 h3
          simp only [nest]
          omega
        · cases h
      · split at h
        · simp only [Option.map_eq_some_iff] at h
          obtain ⟨p, h2, rfl⟩ := h
          simp only [nest]
          omega
        · cases h
      · split at h
        · simp only [Option.bind_eq_some_iff, Option.map_eq_some_iff] at h
          obtain ⟨f', h2, l', h3, rfl⟩ := h
          have := i0 h3
          simp only [nest]
          omega
        · cases h
      · split at h
        · simp only [Option.bind_eq_some_iff, Option.map_eq_some_iff] at h
          obtain ⟨f', h2, l', h3, t', h5, rfl⟩ := h
          have := i0 h3
          have := i1 _ _ h5
          simp only [nest]
          omega
        · cases h
      · split at h
        · simp only [Option.bind_eq_some_iff, Option.map_eq_some_iff] at h
          obtain ⟨f', h2, l', h3, rfl⟩ := h
          have := i0 h3
          simp only [nest]
          omega
        · cases h
      · split at h
        · simp only [Option.bind_eq_some_iff, Option.map_eq_some_iff] at h
          obtain ⟨x, h2, ty, h3, rfl⟩ := h
          simp only [nest]
          omega
        · cases h
      · split at h
        · simp only [Option.bind_eq_some_iff, Option.map_eq_some_iff] at h
          obtain ⟨x', h2, y', h3, z', h4, rfl⟩ := h
          have := i1 _ _ h2
          have := i1 _ _ h3
          have := i1 _ _ h4
          simp only [nest]
          omega
        · cases h
      · split at h
        · simp only [Option.map_eq_some_iff] at h
          obtain ⟨els, h2, rfl⟩ := h
          have := i0 h2
          simp only [nest]
          omega
        · cases h
      · split at h
        · simp only [Option.bind_eq_some_iff, Option.map_eq_some_iff] at h
          obtain ⟨x', h2, y', h3, rfl⟩ := h
          have := i1 _ _ h3
          simp only [nest]
          omega
        · cases h
      · split at h
        · simp only [Option.map_eq_some_iff] at h
          obtain ⟨ds, h2, rfl⟩ := h
          obtain ⟨h1, l, rfl, h3⟩ := (dArr_iff ..).1 h2
          have : nestD ds < n := by
            refine nestD_lt (by omega) (forall2_left h3 ?_)
            intro d e hde
            split at hde
            · simp only [Option.bind_eq_some_iff, Option.map_eq_some_iff] at hde
              obtain ⟨x, g1, y, g2, rfl⟩ := hde
              obtain ⟨m, rfl⟩ : ∃ m, n = m + 1 := ⟨n - 1, by omega⟩
              have := ih m (by omega) _ _ g2
              simp only [nestP]
              omega
            · cases hde
          simp only [nest]
          omega
        · cases h
      · split at h
        · simp only [Option.bind_eq_some_iff, Option.map_eq_some_iff] at h
          obtain ⟨l', h2, x', h3, y', h4, z', h5, rfl⟩ := h
          have := i0 h2
          have := i1 _ _ h3
          have := i1 _ _ h4
          have := i1 _ _ h5
          simp only [nest]
          omega
        · cases h
      · split at h
        · simp only [Option.bind_eq_some_iff, Option.map_eq_some_iff] at h
          obtain ⟨q', h2, l', h3, b', h4, rfl⟩ := h
          have := i0 h3
          have := i1 _ _ h4
          simp only [nest]
          omega
        · cases h
      · cases h

/-- C81. The query of a file that can be read is nested less than 126 deep. -/
theorem C81_depth (j : Json) (r : Raw) (h : decode j = some r) : nest r.query < 126 := by
  unfold decode dCall at h
  split at h
  · simp only [Option.bind_eq_some_iff] at h
    obtain ⟨x1, h2, h3⟩ := h
    unfold dDump at h3
    split at h3
    · simp only [Option.bind_eq_some_iff, Option.map_eq_some_iff] at h3
      obtain ⟨q, h4, x2, h5, x3, h6, x4, h7, x5, h8, x6, h9, x7, h10, x8, h11, rfl⟩ := h3
      exact nest_bound _ _ _ h4
    · cases h3
  · cases h

/-- A conjunction of `k` formulas and `true`. -/
def conjT : Nat → JT
  | 0 => .fun_ trueP
  | k + 1 => .app (.fun_ andP) [.fun_ trueP, conjT k]

/-- A file with a query only. -/
def rawOf (q : JT) : Raw := ⟨q, [], [], [], [], [], [], []⟩

theorem conjT_nest (k : Nat) : nest (conjT k) = 3 * k + 2 := by
  induction k with
  | zero => rfl
  | succ k ih =>
    simp only [conjT, nest, nestL, ih]
    omega

theorem conjT_ok (k : Nat) : OkTm (conjT k) := by
  have h1 : OkPath trueP := ⟨by simp [trueP], .inr (by decide)⟩
  have h2 : OkPath andP := ⟨by simp [andP], .inr (by decide)⟩
  induction k with
  | zero => simpa only [conjT, OkTm] using h1
  | succ k ih => simp only [conjT, OkTm, OkTms]; exact ⟨h2, h1, ih, trivial⟩

theorem ok_rawOf {q : JT} (h : OkTm q) : OkRaw (rawOf q) := by
  constructor <;> simp [rawOf, h]

/-- C81, why partial. A query with 42 nested conjunctions can be written, but no way of writing it is read. -/
theorem C81_depth_counterexample (k : Nat) (hk : 42 ≤ k) :
    WCall (rawOf (conjT k)) (eCall (rawOf (conjT k))) ∧ ∀ j, WCall (rawOf (conjT k)) j → decode j = none := by
  refine ⟨(C81_roundtrip_partial _ (ok_rawOf (conjT_ok k))).1, fun j hj => ?_⟩
  cases h : decode j with
  | none => rfl
  | some r =>
    obtain rfl := C81_unique j _ _ ((C81_reads_partial j).1 r h) hj
    have h1 := C81_depth j _ h
    have h2 : nest (rawOf (conjT k)).query = 3 * k + 2 := conjT_nest k
    omega

/-- A conjunction that is read. -/
example : decode (eCall (rawOf (conjT 10))) = some (rawOf (conjT 10)) := by
  refine (C81_roundtrip_partial _ (ok_rawOf (conjT_ok 10))).2 ?_
  decide +kernel

/-! ### Variables -/

/-- How Squirrel writes an identifier: a name and a tag. -/
def idJ (s : String) (k : Nat) : Json := fj ["name", "tag"] [.str s, .int k]

/-- A file with the query `a = b`, where `a` and `b` are variables. -/
def eqFile (a b : Json) : Json :=
  fj ["parameters", "context"] [fj ["num_retry", "timeout"] [.int 5, .float],
    fj ["query", "hypotheses", "variables", "actions", "names", "operators", "macros", "types"]
      [.obj [("App", fj ["f", "args"] [.obj [("Fun", fj ["symb"] [ePath eqP])],
        .arr [.obj [("Var", fj ["id", "ty"] [a, .str "Message"])], .obj [("Var", fj ["id", "ty"] [b, .str "Message"])]]])],
        .arr [], .arr [fj ["id", "ty"] [a, .str "Message"], fj ["id", "ty"] [b, .str "Message"]], .arr [], .arr [], .arr [], .arr [], .arr []]]

/-- What is read of such a file. -/
def eqRaw (a b : String) : Raw :=
  ⟨.app (.fun_ eqP) [.var ⟨a, .message⟩, .var ⟨b, .message⟩], [], [⟨a, .message⟩, ⟨b, .message⟩], [], [], [], [], []⟩

theorem eqFile_read : decode (eqFile (idJ "x" 1) (idJ "x" 2)) = some (eqRaw "x" "x") ∧ decode (eqFile (idJ "x" 1) (idJ "x" 1)) = some (eqRaw "x" "x") ∧
    decode (eqFile (idJ "x" 1) (idJ "y" 2)) = some (eqRaw "x" "y") := by
  refine ⟨?_, ?_, ?_⟩ <;> with_unfolding_all rfl

/-- C81, tags. A variable of Squirrel is a name and a tag. As tags are not read, the query `x#1 = x#2`, of two variables, is read as `x = x`: the same as
of one variable, and valid when `=` is equality. With other names than `x` for both, the query is not that. -/
theorem C81_tag_counterexample :
    ∃ r r' : Raw, decode (eqFile (idJ "x" 1) (idJ "x" 2)) = some r ∧ decode (eqFile (idJ "x" 1) (idJ "x" 1)) = some r ∧
      decode (eqFile (idJ "x" 1) (idJ "y" 2)) = some r' ∧
      ∀ (C : Ctx) (D : Type) (S : SStr D) (sys : String) (ρ : String → D), sev C S sys ρ r.query = S.op eqP [ρ "x", ρ "x"] ∧
        sev C S sys ρ r'.query = S.op eqP [ρ "x", ρ "y"] := by
  refine ⟨_, _, eqFile_read.1, eqFile_read.2.1, eqFile_read.2.2, fun C D S sys ρ => ?_⟩
  simp [eqRaw, sev, sevs]

/-! ### Tables -/

/-- C81. A table has the last declaration of each symbol, and no other. -/
theorem C81_last {α : Type} (key : α → Path) (l : List α) :
    (∀ e, e ∈ lastOf key l ↔ ∃ pre post, l = pre ++ e :: post ∧ ∀ f ∈ post, key f ≠ key e) ∧ ((lastOf key l).map key).Nodup ∧ (lastOf key l).Sublist l := by
  induction l with
  | nil => simp [lastOf]
  | cons a r ih =>
    obtain ⟨h1, h2, h3⟩ := ih
    by_cases ha : r.any (fun f => key f = key a) = true
    · simp only [lastOf, ha, if_true]
      refine ⟨fun e => ?_, h2, h3.trans (List.sublist_cons_self a r)⟩
      rw [h1]
      constructor
      · rintro ⟨pre, post, rfl, h⟩
        exact ⟨a :: pre, post, rfl, h⟩
      · rintro ⟨pre, post, h, h'⟩
        cases pre with
        | nil =>
          cases h
          simp only [List.any_eq_true, decide_eq_true_eq] at ha
          obtain ⟨f, hf, hk⟩ := ha
          exact absurd hk (h' f hf)
        | cons b pre =>
          cases h
          exact ⟨pre, post, rfl, h'⟩
    · have ha' : ∀ f ∈ r, key f ≠ key a := by simpa using ha
      simp only [lastOf, ha, Bool.false_eq_true, if_false]
      refine ⟨fun e => ?_, ?_, h3.cons_cons a⟩
      · rw [List.mem_cons, h1]
        constructor
        · rintro (rfl | ⟨pre, post, rfl, h⟩)
          · exact ⟨[], r, rfl, ha'⟩
          · exact ⟨a :: pre, post, rfl, h⟩
        · rintro ⟨pre, post, h, h'⟩
          cases pre with
          | nil =>
            cases h
            exact .inl rfl
          | cons b pre =>
            cases h
            exact .inr ⟨pre, post, rfl, h'⟩
      · rw [List.map_cons, List.nodup_cons]
        refine ⟨?_, h2⟩
        intro h
        obtain ⟨f, hf, hk⟩ := List.mem_map.1 h
        exact ha' f (h3.subset hf) hk

/-- SPECIFICATION. `m` is the map made of the declarations `l`: for each name its last declaration, once. -/
structure MapOf {α : Type} (key : α → Path) (l m : List α) : Prop where
  last : ∀ e, e ∈ m ↔ ∃ pre post, l = pre ++ e :: post ∧ ∀ f ∈ post, key f ≠ key e
  once : (m.map key).Nodup

/-- C81. The tables of a file are maps: actions, names, operators, macros and types each have the last declaration of each symbol, and the
query, the hypotheses and the variables are those written. -/
theorem C81_tables (r : Raw) : MapOf JAct.name r.actions r.process.actions ∧ MapOf (·.1) r.names r.process.names ∧
    MapOf (·.1) r.ops r.process.ops ∧ MapOf (·.1) r.macs r.process.macs ∧ MapOf (·.1) r.types r.process.types ∧
    r.process.query = r.query ∧ r.process.hyps = r.hyps ∧ r.process.vars = r.vars := by
  have h : ∀ {α : Type} (key : α → Path) (l : List α), MapOf key l (lastOf key l) := fun key l => ⟨(C81_last key l).1, (C81_last key l).2.1⟩
  exact ⟨h _ _, h _ _, h _ _, h _ _, h _ _, rfl, rfl, rfl⟩

theorem lastOf_id {α : Type} (key : α → Path) : ∀ (l : List α), (l.map key).Nodup → lastOf key l = l
  | [], _ => rfl
  | a :: r, h => by
    rw [List.map_cons, List.nodup_cons] at h
    have : ¬ r.any (fun f => key f = key a) = true := by
      simp only [List.any_eq_true, decide_eq_true_eq, not_exists, not_and]
      intro f hf hk
      exact h.1 (hk ▸ List.mem_map_of_mem hf)
    simp only [lastOf, this, Bool.false_eq_true, if_false, lastOf_id key r h.2]

/-! ### From the value to the problem -/

/-- C81. What is proved of the problem of a system holds of the file that was written, under the hypotheses of C80. -/
theorem C81_valid_partial {j : Json} {r : Raw} (hj : WCall r j) {D : Type} {S : SStr D} {U : Sym → Prop} {pr : Bool} {alnum : Char → Bool} (hu : alnum '_' = false)
    (hS : Faithful (r.process.ctx alnum) S U pr) (hd : OverDump (r.process.ctx alnum) r.process U pr) (hn : NamesFine r.process U) {Ps : List String}
    (hP : Ps.Pairwise (· < ·)) (hw : WfDump (r.process.ctx alnum) r.process Ps) {p : AoO (List Txt2.Stm)} (hr : fromJson alnum j = some (.ok p)) (i : Nat)
    (hi : i < Ps.length) {T : D → Prop}
    (hv : ∀ l, p.get i = some l → ∀ P : PStr D, CvModel T P l → ∀ q o, Txt2.Stm.assert .query q o ∈ l → ∀ e, T (pev P e q))
    (hM : SqModel (r.process.ctx alnum) r.process S Ps[i] T) (ρ : String → D) : T (goal (r.process.ctx alnum) r.process S Ps[i] ρ) := by
  simp only [fromJson, Option.map_eq_some_iff] at hr
  obtain ⟨r', h1, h2⟩ := hr
  obtain rfl := C81_unique j _ _ ((C81_reads_partial j).1 r' h1) hj
  exact C80_valid_partial hu hS hd hn hP hw h2 i hi hv hM ρ

/-- The sample file, before its tables are made; the first declaration of `n` is replaced by the second. -/
def exRaw : Raw := ⟨exDump.query, exDump.hyps, exDump.vars, exDump.actions, (sy "n", ⟨[], [], .message⟩) :: exDump.names, exDump.ops, exDump.macs, exDump.types⟩

theorem exRaw_process : exRaw.process = exDump := by
  with_unfolding_all rfl

theorem exRaw_ok : OkRaw exRaw := by
  have hs : ∀ s ∈ ["init", "a", "true", "empty", "c", "A", "B", "n", "g", "h", "input", "output", "=", "happens", "i", "m", "k", "x", "tau"], OkSym s := by
    intro s hs
    simp only [List.mem_cons, List.not_mem_nil, or_false] at hs
    rcases hs with h | h | h | h | h | h | h | h | h | h | h | h | h | h | h | h | h | h | h <;> (subst h; exact .inr (by decide +kernel))
  have hp : ∀ s ∈ ["init", "a", "true", "empty", "c", "A", "B", "n", "g", "h", "input", "output", "=", "happens", "i", "m", "k", "x", "tau"], OkPath (sy s) :=
    fun s h => ⟨by simp [sy], hs s h⟩
  constructor
  · simp [exRaw, exDump, OkTm, OkTms, OkDs, OkD, hp, hs, OkVar, OkTy, exVar, exI]
  · simp [exRaw, exDump, OkTm, OkTms, hp, hs, OkVar, OkTy, exI]
  · simp [exRaw, exDump, OkVar, hs, OkTy, exI]
  · intro a ha
    simp only [exRaw, exDump, List.mem_cons, List.not_mem_nil, or_false] at ha
    rcases ha with rfl | rfl
    · constructor <;> simp [OkTm, OkTms, hp, hs]
    · constructor <;> simp [OkTm, OkTms, OkDs, OkD, hp, hs, OkVar, OkTy, exI]
  · simp [exRaw, exDump, hp, hs, OkFunTy, OkTy]
  · simp [exRaw, exDump, hp, hs, OkFunTy, OkTy, OkDef]
  · simp [exRaw, exDump, hp, hs, OkMac, OkVar, OkTy, OkTm, OkTms, exI, exVar, exTau]
  · simp [exRaw, exDump]

/-- The sample is read as it was written. -/
theorem exRaw_read : decode (eCall exRaw) = some exRaw := by
  refine (C81_roundtrip_partial _ exRaw_ok).2 ?_
  decide +kernel

/-- The hypotheses of `C81_valid_partial` hold of the sample. -/
example : ∃ p, WCall exRaw (eCall exRaw) ∧ fromJson exAln (eCall exRaw) = some (.ok p) ∧ OverDump (exRaw.process.ctx exAln) exRaw.process (· ∈ exU) false ∧
    NamesFine exRaw.process (· ∈ exU) ∧ WfDump (exRaw.process.ctx exAln) exRaw.process ["A", "B"] ∧ Faithful (exRaw.process.ctx exAln) exMod (· ∈ exU) false ∧
    SqModel (exRaw.process.ctx exAln) exRaw.process exMod "B" (· = Dv.tt) := by
  obtain ⟨p, hp, -⟩ := C77_total exAln (by simp) (by decide) exDump_wf exDump_supp
  refine ⟨p, (C81_roundtrip_partial _ exRaw_ok).1, ?_, ?_⟩
  · rw [fromJson, exRaw_read, Option.map_some, exRaw_process, hp]
  · rw [exRaw_process]
    exact ⟨exDump_over, exDump_names, exDump_wf, exMod_faithful, exMod_model⟩

end Sq
end CV
