import Verif.SmtFileProps
set_option linter.unusedSimpArgs false
set_option linter.unusedVariables false
/-
C92, preparation: the text of a file depends only on the names of the symbols it mentions.
-/
namespace CV
namespace SmtM
open Classical

variable {F D : Type}

/-! ### SPECIFICATION: the symbols of a file -/

mutual
/-- The symbols applied in a formula. -/
def fmSyms : Fm F → List F
  | .var _ => []
  | .app f args => f :: fmsSyms args
  | .quant _ _ b => fmSyms b
def fmsSyms : List (Fm F) → List F
  | [] => []
  | a :: as => fmSyms a ++ fmsSyms as
end

/-- The symbols of an assertion. -/
def axSyms : Ax F → List F
  | .comment _ => []
  | .base f | .ground _ f | .theory f | .query f => fmSyms f
  | .rewrite k _ pre post => (match k with | .bool => [] | .other f => [f]) ++ fmSyms pre ++ fmSyms post

/-- The symbols of a declaration. -/
def declSyms : Decl F → List F
  | .sort _ | .alias _ _ => []
  | .datatypes l => l.flatMap fun p => p.2.flatMap fun c => c.1 :: c.2
  | .free f => [f]
  | .subterm f gs => f :: gs

/-- The symbols of a file. -/
def GenFile.syms (g : GenFile F) : List F := g.declarations.flatMap declSyms ++ g.assertions.flatMap axSyms

/-- The same information with other names for the symbols. -/
def SymInfo.rename (K : SymInfo F) (n : F → Txt) : SymInfo F := { K with name := n }

mutual
/-- The symbols of an SMT formula. -/
def smtSyms : SmtFm F → List F
  | .var _ | .tru | .fls => []
  | .fn f args => f :: smtsSyms args
  | .all _ b | .ex _ b | .not b => smtSyms b
  | .and l | .or l | .eq l | .neq l => smtsSyms l
  | .imp a b => smtSyms a ++ smtSyms b
  | .subterm f a b => f :: (smtSyms a ++ smtSyms b)
  | .ite c a b => smtSyms c ++ smtSyms a ++ smtSyms b
def smtsSyms : List (SmtFm F) → List F
  | [] => []
  | a :: as => smtSyms a ++ smtsSyms as
end

/-! ### Lemmas -/

mutual
theorem ofFm_rename (K : SymInfo F) (n : F → Txt) : ∀ f : Fm F, ofFm (K.rename n) f = ofFm K f
  | .var v => rfl
  | .quant .ex vs b => by simp only [ofFm, ofFm_rename K n b]
  | .quant .all vs b => by simp only [ofFm, ofFm_rename K n b]
  | .app f args => by simp only [ofFm, ofFms_rename K n args]; rfl
theorem ofFms_rename (K : SymInfo F) (n : F → Txt) : ∀ l : List (Fm F), ofFms (K.rename n) l = ofFms K l
  | [] => rfl
  | a :: as => by simp only [ofFms, ofFm_rename K n a, ofFms_rename K n as]
end

theorem smts_mem {x : SmtFm F} {l : List (SmtFm F)} (h : x ∈ l) : ∀ s ∈ smtSyms x, s ∈ smtsSyms l := by
  induction l with
  | nil => cases h
  | cons a l ih =>
    intro s hs
    simp only [smtsSyms, List.mem_append]
    rcases List.mem_cons.1 h with rfl | h
    · exact .inl hs
    · exact .inr (ih h s hs)

theorem ofApp_syms {k : SKind} {f : F} {args : List (SmtFm F)} {g : SmtFm F} (h : ofApp k f args = some g) :
    ∀ s ∈ smtSyms g, s = f ∨ s ∈ smtsSyms args := by
  cases k <;> simp only [ofApp] at h
  case vampSub =>
    split at h <;> cases h
    intro s hs
    simpa [smtSyms, smtsSyms] using hs
  case ite =>
    split at h <;> cases h
    intro s hs
    simp only [smtSyms, smtsSyms, List.mem_append] at hs ⊢; tauto
  case imp =>
    split at h <;> cases h
    intro s hs
    simp only [smtSyms, smtsSyms, List.mem_append] at hs ⊢; tauto
  case not =>
    obtain ⟨a, ha, rfl⟩ := Option.map_eq_some_iff.1 h
    intro s hs
    exact .inr (smts_mem (List.mem_of_getLast? ha) s hs)
  all_goals
    cases h
    intro s hs
    simp only [smtSyms, List.mem_cons, List.not_mem_nil] at hs <;> tauto

mutual
theorem ofFm_syms {K : SymInfo F} : ∀ {f : Fm F} {g : SmtFm F}, ofFm K f = some g → ∀ s ∈ smtSyms g, s ∈ fmSyms f
  | .var v, g, h => by cases h; simp [smtSyms]
  | .quant .ex vs b, g, h => by
    obtain ⟨x, hx, rfl⟩ := Option.map_eq_some_iff.1 h
    intro s hs
    simp only [smtSyms] at hs
    exact ofFm_syms (f := b) hx s hs
  | .quant .all vs b, g, h => by
    obtain ⟨x, hx, rfl⟩ := Option.map_eq_some_iff.1 h
    intro s hs
    simp only [smtSyms] at hs
    exact ofFm_syms (f := b) hx s hs
  | .app f args, g, h => by
    obtain ⟨xs, hxs, h⟩ := Option.bind_eq_some_iff.1 h
    intro s hs
    rcases ofApp_syms h s hs with rfl | hs
    · simp [fmSyms]
    · exact List.mem_cons_of_mem _ (ofFms_syms hxs s hs)
theorem ofFms_syms {K : SymInfo F} : ∀ {l : List (Fm F)} {gs : List (SmtFm F)}, ofFms K l = some gs → ∀ s ∈ smtsSyms gs, s ∈ fmsSyms l
  | [], gs, h => by cases h; simp [smtsSyms]
  | a :: as, gs, h => by
    obtain ⟨x, hx, h⟩ := Option.bind_eq_some_iff.1 h
    obtain ⟨xs, hxs, rfl⟩ := Option.map_eq_some_iff.1 h
    intro s hs
    simp only [smtsSyms, fmsSyms, List.mem_append] at hs ⊢
    exact hs.imp (ofFm_syms hx s) (ofFms_syms hxs s)
end

theorem dispVars_rename (K : SymInfo F) (n : F → Txt) : ∀ vs : List Var, dispVars (K.rename n) vs = dispVars K vs
  | [] => rfl
  | v :: vs => by simp only [dispVars, dispVars_rename K n vs]; rfl

mutual
theorem disp_rename (K : SymInfo F) (n : F → Txt) (ev : Bool) : ∀ g : SmtFm F, (∀ s ∈ smtSyms g, n s = K.name s) →
    disp (K.rename n) ev g = disp K ev g
  | .var v, _ => rfl
  | .tru, _ => rfl
  | .fls, _ => rfl
  | .fn f args, h => by
    have e : (K.rename n).name f = K.name f := h f (by simp [smtSyms])
    simp only [disp, disps_rename K n ev args (fun s hs => h s (by simp [smtSyms, hs])), e]
    rfl
  | .all vs b, h => by simp only [disp, disp_rename K n ev b h, dispVars_rename]
  | .ex vs b, h => by simp only [disp, disp_rename K n ev b h, dispVars_rename]
  | .not b, h => by simp only [disp, disp_rename K n ev b h]
  | .and l, h => by simp only [disp, disps_rename K n ev l h]
  | .or l, h => by simp only [disp, disps_rename K n ev l h]
  | .eq l, h => by simp only [disp, disps_rename K n ev l h]
  | .neq l, h => by simp only [disp, disps_rename K n ev l h]
  | .imp a b, h => by
    simp only [disp, disp_rename K n ev a (fun s hs => h s (by simp [smtSyms, hs])),
      disp_rename K n ev b (fun s hs => h s (by simp [smtSyms, hs]))]
  | .subterm f a b, h => by
    have e : (K.rename n).name f = K.name f := h f (by simp [smtSyms])
    simp only [disp, disp_rename K n ev a (fun s hs => h s (by simp [smtSyms, hs])),
      disp_rename K n ev b (fun s hs => h s (by simp [smtSyms, hs])), e]
  | .ite c a b, h => by
    simp only [disp, disp_rename K n ev a (fun s hs => h s (by simp [smtSyms, hs])),
      disp_rename K n ev b (fun s hs => h s (by simp [smtSyms, hs])),
      disp_rename K n ev c (fun s hs => h s (by simp [smtSyms, hs]))]
theorem disps_rename (K : SymInfo F) (n : F → Txt) (ev : Bool) : ∀ l : List (SmtFm F), (∀ s ∈ smtsSyms l, n s = K.name s) →
    disps (K.rename n) ev l = disps K ev l
  | [], _ => rfl
  | a :: as, h => by
    simp only [disps, disp_rename K n ev a (fun s hs => h s (by simp [smtsSyms, hs])),
      disps_rename K n ev as (fun s hs => h s (by simp [smtsSyms, hs]))]
end

/-- The symbols of a command. -/
def cmdSyms : Smt F → List F
  | .assert f | .assertTh f | .assertGround _ f | .assertNot f => smtSyms f
  | .declFun f => [f]
  | .declSort _ | .declAlias _ _ | .comment _ | .checkSat => []
  | .declSub f gs => f :: gs
  | .declRw k _ l r => (match k with | .bool => [] | .other f => [f]) ++ smtSyms l ++ smtSyms r
  | .declData _ cons => cons.flatMap fun p => p.flatMap fun c => c.1 :: c.2

theorem dispDest_rename (K : SymInfo F) (n : F → Txt) : ∀ (ss : List Srt) (ds : List F), (∀ s ∈ ds, n s = K.name s) →
    dispDest (K.rename n) ss ds = dispDest K ss ds
  | [], _, _ => rfl
  | _ :: _, [], _ => rfl
  | s :: ss, d :: ds, h => by
    have e : (K.rename n).name d = K.name d := h d (by simp)
    simp only [dispDest, dispDest_rename K n ss ds (fun x hx => h x (by simp [hx])), e]
    rfl

theorem mapO_congr {α β : Type} {f g : α → Option β} : ∀ {l : List α}, (∀ a ∈ l, f a = g a) → mapO f l = mapO g l
  | [], _ => rfl
  | a :: l, h => by
    simp only [mapO, h a (by simp), mapO_congr (fun x hx => h x (by simp [hx]) : ∀ x ∈ l, f x = g x)]

theorem dispCons_rename (K : SymInfo F) (n : F → Txt) (s : Srt) (c : F × List F) (h : ∀ x ∈ c.1 :: c.2, n x = K.name x) :
    dispCons (K.rename n) s c = dispCons K s c := by
  have e : (K.rename n).name c.1 = K.name c.1 := h _ (by simp)
  simp only [dispCons, dispDest_rename K n _ c.2 (fun x hx => h x (by simp [hx])), e]
  rfl

theorem dispConss_rename (K : SymInfo F) (n : F → Txt) : ∀ (ss : List Srt) (cs : List (List (F × List F))),
    (∀ x ∈ cs.flatMap (fun p => p.flatMap fun c => c.1 :: c.2), n x = K.name x) → dispConss (K.rename n) ss cs = dispConss K ss cs
  | _, [], _ => by simp only [dispConss]
  | [], _ :: _, _ => rfl
  | s :: ss, c :: cs, h => by
    have h1 : mapO (dispCons (K.rename n) s) c = mapO (dispCons K s) c := mapO_congr fun a ha =>
      dispCons_rename K n s a fun x hx => h x (by
        simp only [List.flatMap_cons, List.mem_append, List.mem_flatMap]; exact .inl ⟨a, ha, hx⟩)
    simp only [dispConss, h1, dispConss_rename K n ss cs (fun x hx => h x (by
      simp only [List.flatMap_cons, List.mem_append]; exact .inr hx))]

theorem dispSmt_rename (K : SymInfo F) (n : F → Txt) (ev : Bool) (c : Smt F) (h : ∀ s ∈ cmdSyms c, n s = K.name s) :
    dispSmt (K.rename n) ev c = dispSmt K ev c := by
  cases c with
  | assert f => simp only [dispSmt, disp_rename K n ev f h]
  | assertTh f => simp only [dispSmt, disp_rename K n ev f h]
  | assertGround s f => simp only [dispSmt, disp_rename K n ev f h]; rfl
  | assertNot f => simp only [dispSmt, disp_rename K n ev f h]
  | declFun f =>
    have e : (K.rename n).name f = K.name f := h f (by simp [cmdSyms])
    simp only [dispSmt, e]; rfl
  | declSort s => rfl
  | declAlias a b => rfl
  | declSub f gs =>
    have e : (K.rename n).name f = K.name f := h f (by simp [cmdSyms])
    have e' : gs.map (K.rename n).name = gs.map K.name := List.map_congr_left fun x hx => h x (by simp [cmdSyms, hx])
    simp only [dispSmt, e, e']
  | declRw k vs l r =>
    have e : rwName (K.rename n) k = rwName K k := by
      cases k with
      | bool => rfl
      | other f => exact h f (by simp [cmdSyms])
    simp only [dispSmt, dispVars_rename, e, disp_rename K n ev l (fun s hs => h s (by simp [cmdSyms, hs])),
      disp_rename K n ev r (fun s hs => h s (by simp [cmdSyms, hs]))]
  | declData ss cs => simp only [dispSmt, dispConss_rename K n ss cs h]; rfl
  | comment s => rfl
  | checkSat => rfl

theorem dispFile_rename (K : SymInfo F) (n : F → Txt) (ev : Bool) : ∀ (i : Nat) (l : List (Smt F)),
    (∀ c ∈ l, ∀ s ∈ cmdSyms c, n s = K.name s) → dispFile (K.rename n) ev i l = dispFile K ev i l
  | _, [], _ => rfl
  | i, c :: l, h => by
    simp only [dispFile, dispSmt_rename K n ev c (h c (by simp)), dispFile_rename K n ev _ l (fun x hx => h x (by simp [hx]))]

theorem ofAx_rename (K : SymInfo F) (n : F → Txt) (o : Opts) (a : Ax F) : ofAx (K.rename n) o a = ofAx K o a := by
  cases a <;> simp only [ofAx, ofFm_rename]

theorem ofAx_syms {K : SymInfo F} {o : Opts} {a : Ax F} {c : Smt F} (h : ofAx K o a = some c) : ∀ s ∈ cmdSyms c, s ∈ axSyms a := by
  cases a with
  | comment s => cases h; simp [cmdSyms]
  | base f => obtain ⟨x, hx, rfl⟩ := Option.map_eq_some_iff.1 h; exact ofFm_syms hx
  | ground s f =>
    obtain ⟨x, hx, rfl⟩ := Option.map_eq_some_iff.1 h
    intro s
    split <;> (intro hs; simp only [cmdSyms, smtSyms] at hs; exact ofFm_syms hx s hs)
  | theory f =>
    obtain ⟨x, hx, rfl⟩ := Option.map_eq_some_iff.1 h
    intro s
    split <;> (intro hs; simp only [cmdSyms, smtSyms] at hs; exact ofFm_syms hx s hs)
  | query f =>
    obtain ⟨x, hx, rfl⟩ := Option.map_eq_some_iff.1 h
    intro s
    split <;> (intro hs; simp only [cmdSyms, smtSyms] at hs; exact ofFm_syms hx s hs)
  | rewrite k vs pre post =>
    obtain ⟨x, hx, h⟩ := Option.bind_eq_some_iff.1 h
    obtain ⟨y, hy, rfl⟩ := Option.map_eq_some_iff.1 h
    intro s
    split
    · intro hs
      simp only [cmdSyms, smtSyms, smtsSyms, List.append_nil, List.mem_append] at hs
      simp only [axSyms, List.mem_append]
      exact hs.elim (fun h => .inl (.inr (ofFm_syms hx s h))) fun h => .inr (ofFm_syms hy s h)
    · intro hs
      simp only [cmdSyms, List.mem_append] at hs
      simp only [axSyms, List.mem_append]
      rcases hs with (h | h) | h
      · exact .inl (.inl h)
      · exact .inl (.inr (ofFm_syms hx s h))
      · exact .inr (ofFm_syms hy s h)

theorem ofDecl_syms (d : Decl F) : cmdSyms (ofDecl d) = declSyms d := by
  cases d <;> simp [ofDecl, cmdSyms, declSyms, List.flatMap_map]

theorem mapO_from {α β : Type} {f : α → Option β} : ∀ {l : List α} {r : List β}, mapO f l = some r → ∀ y ∈ r, ∃ x ∈ l, f x = some y
  | [], r, h, y, hy => by cases h; cases hy
  | a :: l, r, h, y, hy => by
    obtain ⟨x, hx, h⟩ := Option.bind_eq_some_iff.1 h
    obtain ⟨xs, hxs, rfl⟩ := Option.map_eq_some_iff.1 h
    rcases List.mem_cons.1 hy with rfl | hy
    · exact ⟨a, by simp, hx⟩
    · obtain ⟨z, hz, e⟩ := mapO_from hxs y hy
      exact ⟨z, by simp [hz], e⟩

/-- The text of a file depends only on the names of its symbols. -/
theorem output_rename (K : SymInfo F) (n : F → Txt) (o : Opts) (g : GenFile F) (h : ∀ s ∈ g.syms, n s = K.name s) :
    output (K.rename n) o g = output K o g := by
  have e : ofFile (K.rename n) o g = ofFile K o g := by
    simp only [ofFile, mapO_congr (fun a (_ : a ∈ g.assertions) => ofAx_rename K n o a)]
  rw [output, output, e]
  cases hf : ofFile K o g with
  | none => rfl
  | some l =>
    simp only [Option.bind_some]
    apply dispFile_rename
    obtain ⟨as, has, rfl⟩ := Option.map_eq_some_iff.1 hf
    intro c hc s hs
    simp only [List.mem_append, List.mem_map, List.mem_singleton] at hc
    rcases hc with (⟨d, hd, rfl⟩ | hc) | rfl
    · rw [ofDecl_syms] at hs
      exact h s (by simp only [GenFile.syms, List.mem_append, List.mem_flatMap]; exact .inl ⟨d, hd, hs⟩)
    · obtain ⟨a, ha, e⟩ := mapO_from has c hc
      exact h s (by simp only [GenFile.syms, List.mem_append, List.mem_flatMap]; exact .inr ⟨a, ha, ofAx_syms e s hs⟩)
    · simp [cmdSyms] at hs

/-! ### Files whose names are only good where they are used -/

/-- Names do not clash, for the symbols in `U`. -/
structure NamesOn (K : SymInfo F) (U : F → Prop) : Prop where
  ok : ∀ f, U f → (K.kind f).isFn → NameOK (K.name f)
  res : ∀ f, U f → (K.kind f).isFn → K.name f ∉ reserved
  var : ∀ f v, U f → (K.kind f).isFn → K.name f ≠ vn K v
  spare : ∀ f, U f → (K.kind f).isFn → (K.name f).head? ≠ some '$'
  sortOK : ∀ s, NameOK (K.sortName s)
  inj : ∀ f g, U f → U g → (K.kind f).isFn → (K.kind g).isFn → K.name f = K.name g → f = g
  sortInj : ∀ s t, K.sortName s = K.sortName t → s = t

/-- Names for the other symbols. -/
noncomputable def patch (K : SymInfo F) (U : F → Prop) (code : F → Nat) : F → Txt := fun f =>
  if U f then K.name f else '$' :: Nat.toDigits 10 (code f)

theorem dollar_digits_ok (n : Nat) : NameOK ('$' :: Nat.toDigits 10 n) := by
  refine ⟨by simp, fun c hc => ?_⟩
  rcases List.mem_cons.1 hc with rfl | hc
  · decide
  · exact digit_nameChar (Nat.isDigit_of_mem_toDigits (by decide) (by decide) hc)

theorem names_patch {K : SymInfo F} {U : F → Prop} (h : NamesOn K U) {code : F → Nat} (hc : Function.Injective code) :
    Names (K.rename (patch K U code)) where
  ok f hf := by
    show NameOK (patch K U code f)
    by_cases hu : U f
    · simp only [patch, hu, if_true]; exact h.ok f hu hf
    · simp only [patch, hu, if_false]; exact dollar_digits_ok _
  res f hf := by
    show patch K U code f ∉ reserved
    by_cases hu : U f
    · simp only [patch, hu, if_true]; exact h.res f hu hf
    · simp only [patch, hu, if_false]
      intro hr
      have : ∀ r ∈ reserved, r.head? ≠ some '$' := by decide
      exact this _ hr rfl
  var f v hf := by
    show patch K U code f ≠ vn K v
    by_cases hu : U f
    · simp only [patch, hu, if_true]; exact h.var f v hu hf
    · simp only [patch, hu, if_false]
      intro e
      have hs := h.sortOK v.sort
      cases hn : K.sortName v.sort with
      | nil => exact hs.1 hn
      | cons c r =>
        have : vn K v = c :: 'X' :: Nat.toDigits 10 v.id := by simp [vn, SymInfo.varName, hn]
        rw [this] at e
        have e := (List.cons.inj e).2
        have : 'X' ∈ Nat.toDigits 10 (code f) := by rw [e]; simp
        exact absurd (Nat.isDigit_of_mem_toDigits (by decide) (by decide) this) (by decide)
  sortOK := h.sortOK
  inj f g hf hg := by
    show patch K U code f = patch K U code g → f = g
    by_cases hu : U f <;> by_cases hv : U g <;> simp only [patch, hu, hv, if_true, if_false]
    · exact h.inj f g hu hv hf hg
    · intro e; exact absurd (by rw [e]; rfl) (h.spare f hu hf)
    · intro e; exact absurd (by rw [← e]; rfl) (h.spare g hv hg)
    · intro e
      have e := (List.cons.inj e).2
      apply hc
      rw [← Nat.ofDigitChars_ten_toDigits (n := code f), e, Nat.ofDigitChars_ten_toDigits]
  sortInj := h.sortInj

mutual
theorem FmOK_rename {K : SymInfo F} {n : F → Txt} {ev : Bool} : ∀ {f : Fm F} {bd : List Var}, FmOK K ev bd f → FmOK (K.rename n) ev bd f
  | .var v, bd, h => h
  | .quant q vs b, bd, h => ⟨fun e => by have := h.1 e; cases b <;> exact this, FmOK_rename h.2⟩
  | .app f args, bd, h => ⟨h.1, FmOKs_rename h.2⟩
theorem FmOKs_rename {K : SymInfo F} {n : F → Txt} {ev : Bool} : ∀ {l : List (Fm F)} {bd : List Var}, FmOKs K ev bd l → FmOKs (K.rename n) ev bd l
  | [], _, _ => trivial
  | a :: as, bd, h => ⟨FmOK_rename h.1, FmOKs_rename h.2⟩
end

theorem FileOK.rename {K : SymInfo F} {n : F → Txt} {ev : Bool} {g : GenFile F} (h : FileOK K ev g) : FileOK (K.rename n) ev g where
  ax a ha := by
    have := h.ax a ha
    cases a with
    | comment s => exact this
    | rewrite k vs pre post => exact ⟨by have := this.1; cases k <;> exact this, FmOK_rename this.2.1, FmOK_rename this.2.2⟩
    | _ => exact FmOK_rename this
  decl d hd := by
    have := h.decl d hd
    cases d with
    | datatypes l => exact fun p hp c hc => ⟨(this p hp c hc).kind, (this p hp c hc).out, (this p hp c hc).ins, (this p hp c hc).dest⟩
    | _ => exact this

theorem Std.rename {K : SymInfo F} {n : F → Txt} {M : Str F D} (h : Std K M) : Std (K.rename n) M :=
  ⟨h.tru, h.fls, h.and, h.or, h.eq, h.not, h.imp, h.ite⟩

theorem declSem_rename {K : SymInfo F} {n : F → Txt} {M : Str F D} {d : Decl F} (h : declSem K M d) : declSem (K.rename n) M d := by
  cases d <;> exact h

end SmtM
end CV
