/-
Property C90: what the file written for a problem declares (C71_declared_once, C71_sorts_once, C71_sorts_declared), for the problems that are
made of accepted files (Load.lean, Build.lean). What C71 assumes about a problem is proved here of these.
-/
import Verif.BuildMain
import Verif.GenerateDecls
set_option linter.unusedSimpArgs false

namespace CV
namespace Dcl
open Prs

/-! ## The sorts of variables are declared -/

section
variable (S : Srt → Prop)

/-- The variables that occur have a sort of `S`. -/
inductive VI : Fm PF → Prop
  | var {v : Var} : S v.sort → VI (.var v)
  | app {f args} : (∀ a ∈ args, VI a) → VI (.app f args)
  | quant {q vs b} : VI b → VI (.quant q vs b)

/-- The parameters of a function made for a quantifier or a `find`, and the variables it binds, have sorts of `S`. -/
def QOk : TAQ → Prop
  | .quant _ bs fr _ => ∀ v ∈ bs ++ fr, S v.sort
  | .find bs fr _ _ _ => ∀ v ∈ bs ++ fr, S v.sort

structure VOk (st : St) : Prop where
  bvars : ∀ p ∈ st.bvars, S p.2.sort
  tbl : ∀ q ∈ st.tbl, QOk S q

/-- `S` has the sorts of an environment. -/
structure Closed (E : Env) : Prop where
  sorts : ∀ n s, E.sorts n = some s → S s
  steps : ∀ n c, E.steps n = some c → ∀ p ∈ c.params, S p.2
  macros : ∀ n c, E.macros n = some c → ∀ p ∈ c.params, S p.2
  message : S .message
  realm : ∀ r s s', eqRealm r s s' = true → S s' → S s

def PV (p : Px → Tm → St → PRes) : Prop := ∀ es t st x, p es t st = .ok x → VOk S st → VOk S x.2 ∧ VI S x.1

variable {S}

theorem VI.apply {s : Subst PF} (hs : ∀ v : Var, S v.sort → VI S (s v)) {φ : Fm PF} (h : VI S φ) : VI S (s.apply φ) := by
  induction h with
  | var h => exact hs _ h
  | app _ ih =>
    rw [Subst.apply, Subst.applys_eq]
    refine .app (fun a ha => ?_)
    obtain ⟨b, hb, rfl⟩ := List.mem_map.1 ha
    exact ih b hb
  | quant _ ih => exact .quant ih

theorem msubst_vi {l : MSubst PF} (h : ∀ p ∈ l, VI S p.2) (v : Var) (hv : S v.sort) : VI S (l.get v) := by
  simp only [MSubst.get, MSubst.maybeGet]
  cases hf : l.find? (fun o => o.1 == v.id) with
  | none => exact .var hv
  | some p => exact h p (List.mem_of_find?_eq_some hf)

theorem VI.freeIn {φ : Fm PF} (h : VI S φ) : ∀ bs, ∀ v ∈ φ.freeIn bs, S v.sort := by
  induction h with
  | @var w h =>
    intro bs v hv
    rw [Fm.freeIn] at hv
    split at hv
    · cases hv
    · rw [List.mem_singleton] at hv; exact hv ▸ h
  | app _ ih =>
    intro bs v hv
    rw [Fm.freeIn, Fm.freeIns_eq, List.mem_flatMap] at hv
    obtain ⟨a, ha, hv⟩ := hv
    exact ih a ha bs v hv
  | quant _ ih =>
    intro bs v hv
    rw [Fm.freeIn] at hv
    exact ih _ v hv

theorem VI.free {φ : Fm PF} (h : VI S φ) : ∀ v ∈ φ.free, S v.sort := h.freeIn []

theorem mem_uniq {v : Var} : ∀ {l : List Var} {seen}, v ∈ uniq seen l → v ∈ l
  | [], _, h => by cases h
  | w :: l, seen, h => by
    rw [uniq] at h
    split at h
    · exact .tail _ (mem_uniq h)
    · rcases List.mem_cons.1 h with rfl | h
      · exact List.mem_cons_self ..
      · exact .tail _ (mem_uniq h)

theorem taFree_sorts {bs : List Var} {fs : List (Fm PF)} (h : ∀ f ∈ fs, VI S f) : ∀ v ∈ taFree bs fs, S v.sort := by
  intro v hv
  have := mem_uniq (List.mem_filter.1 hv).1
  obtain ⟨f, hf, hv⟩ := List.mem_flatMap.1 this
  exact (h f hf).free v hv

theorem parseList_vi {p : Px → Tm → St → PRes} (hp : PV S p) : ∀ {l : List (Px × Tm)} {st x}, parseList p l st = .ok x → VOk S st →
    VOk S x.2 ∧ ∀ φ ∈ x.1, VI S φ
  | [], st, x, h, hs => by cases h; exact ⟨hs, by simp⟩
  | (es, t) :: l, st, x, h, hs => by
    simp only [parseList, bind_ok] at h
    obtain ⟨y, hy, z, hz, h⟩ := h
    cases h
    obtain ⟨a, b⟩ := hp _ _ _ _ hy hs
    obtain ⟨c, d⟩ := parseList_vi hp hz a
    exact ⟨c, fun φ hφ => by
      rcases List.mem_cons.1 hφ with rfl | hφ
      · exact b
      · exact d φ hφ⟩

theorem tryEval_vi {s f} (h : VI S f) : VI S (tryEval s f) := by
  unfold tryEval
  split
  · exact .app (fun a ha => by rw [List.mem_singleton] at ha; exact ha ▸ h)
  · exact h

theorem buildApp_vi {r i store o as} (h : ∀ a ∈ as, VI S a) : VI S (buildApp r i store o as) := by
  have h0 : VI S (if i.isName then .app .nameToMsg [.app i.sym as] else .app i.sym as : Fm PF) := by
    split
    · exact .app (fun a ha => by rw [List.mem_singleton] at ha; exact ha ▸ .app h)
    · exact .app h
  simp only [buildApp]
  split
  · split
    · exact tryEval_vi h0
    · exact h0
  · exact h0

theorem VOk.store {st : St} (h : VOk S st) (s : Store) : VOk S { st with store := s } := ⟨h.bvars, h.tbl⟩

theorem VOk.take {st : St} (h : VOk S st) (n : Nat) : VOk S { st with bvars := st.bvars.take n } :=
  ⟨fun p hp => h.bvars p (List.mem_of_mem_take hp), h.tbl⟩

theorem parseApp_vi {p : Realm → Px → Tm → St → PRes} (hp : ∀ r, PV S (p r)) {r es i args st x} (h : parseApp p r es i args st = .ok x)
    (hs : VOk S st) : VOk S x.2 ∧ VI S x.1 := by
  simp only [parseApp, bind_ok] at h
  obtain ⟨y, hy, h⟩ := h
  split at h
  case isFalse => cases h
  simp only [bind_ok] at h
  obtain ⟨u, hu, h⟩ := h
  cases h
  obtain ⟨a, b⟩ := parseList_vi (hp _) hy (hs.store _)
  exact ⟨a.store _, buildApp_vi b⟩

theorem unify_vi {E : Env} (hE : Closed S E) {st r es s u} (h : Px.unify st r es (.stat s) = some u) (hs : S s) : S u.1 := by
  unfold Px.unify at h
  simp only [Px.get] at h
  split at h
  · rename_i a b _ e
    cases e
    split at h
    · rename_i k
      cases h
      exact hE.realm _ _ _ k hs
    · cases h
  · rename_i e
    cases e
    obtain ⟨st', _, rfl⟩ := Option.map_eq_some_iff.1 h
    exact hs
  · rename_i e; cases e
  · cases h

theorem parseVar_vi {E : Env} (hE : Closed S E) {r es v st x} (h : parseVar r es v st = .ok x) (hv : S v.sort) (hs : VOk S st) : VOk S x.2 ∧ VI S x.1 := by
  unfold parseVar at h
  split at h
  · cases h
  split at h
  · split at h
    · cases h
    · simp only [bind_ok] at h
      obtain ⟨u, _, h⟩ := h
      cases h
      exact ⟨hs.store _, .app fun a ha => by rw [List.mem_singleton] at ha; exact ha ▸ .var hv⟩
  · simp only [bind_ok] at h
    obtain ⟨u, hu, h⟩ := h
    cases h
    exact ⟨hs.store _, .var (unify_vi hE (Out.ofOption_ok hu) hv)⟩

theorem parseApplication_vi {p : Realm → Px → Tm → St → PRes} (hp : ∀ r, PV S (p r)) {E r es f args st x} (hE : Closed S E)
    (h : parseApplication p E r es f args st = .ok x) (hs : VOk S st) : VOk S x.2 ∧ VI S x.1 := by
  unfold parseApplication at h
  split at h
  · split at h
    · rename_i b hb
      exact parseVar_vi hE h (hs.bvars b (List.mem_of_find?_eq_some hb)) hs
    · obtain ⟨i, _, h⟩ := bind_ok.1 h
      exact parseApp_vi hp h hs
  · obtain ⟨i, _, h⟩ := bind_ok.1 h
    exact parseApp_vi hp h hs

theorem parseBindings_vi {E : Env} (hE : Closed S E) : ∀ {vs : List Bnd} {st x}, parseBindings E vs st = .ok x → VOk S st →
    VOk S x.2 ∧ ∀ v ∈ x.1, S v.sort
  | [], st, x, h, hs => by cases h; exact ⟨hs, by simp⟩
  | b :: l, st, x, h, hs => by
    simp only [parseBindings, bind_ok] at h
    obtain ⟨y, hy, z, hz, h⟩ := h
    cases h
    unfold parseBinding at hy
    split at hy
    · cases hy
    · split at hy
      · cases hy
      · rename_i s hb
        cases hy
        have hb := hE.sorts _ _ hb
        obtain ⟨a, c⟩ := parseBindings_vi hE hz ⟨fun p hp => by
          rcases List.mem_append.1 hp with hp | hp
          · exact hs.bvars p hp
          · rw [List.mem_singleton] at hp; subst hp; exact hb, hs.tbl⟩
        refine ⟨a, fun v hv => ?_⟩
        rcases List.mem_cons.1 hv with rfl | hv
        · exact hb
        · exact c v hv

theorem foldInfix_vi {p : Px → Tm → St → PRes} (hp : PV S p) {g es} : ∀ {l : List Tm} {acc st x}, foldInfix p g es l acc st = .ok x →
    VOk S st → VI S acc → VOk S x.2 ∧ VI S x.1
  | [], acc, st, x, h, hs, ha => by cases h; exact ⟨hs, ha⟩
  | t :: l, acc, st, x, h, hs, ha => by
    obtain ⟨y, hy, h⟩ := bind_ok.1 h
    obtain ⟨a, b⟩ := hp _ _ _ _ hy hs
    refine foldInfix_vi hp h a (.app fun c hc => ?_)
    simp only [List.mem_cons, List.not_mem_nil, or_false] at hc
    rcases hc with rfl | rfl
    · exact ha
    · exact b

theorem parseMacArgs_vi {p : Realm → Px → Tm → St → PRes} (hp : ∀ r, PV S (p r)) {r} : ∀ {l : List ((String × Srt) × Tm)} {st x},
    parseMacArgs p r l st = .ok x → VOk S st → VOk S x.2 ∧ ∀ φ ∈ x.1, VI S φ
  | [], st, x, h, hs => by cases h; exact ⟨hs, by simp⟩
  | (b, t) :: l, st, x, h, hs => by
    simp only [parseMacArgs, bind_ok] at h
    obtain ⟨y, hy, z, hz, h⟩ := h
    cases h
    obtain ⟨a, b⟩ := hp _ _ _ _ _ hy hs
    obtain ⟨c, d⟩ := parseMacArgs_vi hp hz a
    exact ⟨c, fun φ hφ => by
      rcases List.mem_cons.1 hφ with rfl | hφ
      · exact b
      · exact d φ hφ⟩

theorem numbered_in {ps : List (String × Srt)} (h : ∀ p ∈ ps, S p.2) : ∀ p ∈ numbered ps, S p.2.sort := by
  intro p hp
  obtain ⟨q, hq, rfl⟩ := List.mem_map.1 hp
  exact h _ (List.fst_mem_of_mem_zipIdx hq)

theorem stepMac_vi {p : Realm → Px → Tm → St → PRes} (hp : ∀ r, PV S (p r)) {E r es s args st x} (hE : Closed S E) {body : StepInfo → Tm}
    (h : parseStepMac p E r es s args body st = .ok x) (hs : VOk S st) : VOk S x.2 ∧ VI S x.1 := by
  simp only [parseStepMac, bind_ok] at h
  obtain ⟨y, hy, h⟩ := h
  obtain ⟨g, k⟩ := parseApplication_vi hp hE hy hs
  split at h
  · cases h
  rename_i as has
  have hl : ∀ a ∈ as, VI S a := by
    generalize y.1 = φ at k has
    cases k <;> cases has
    assumption
  split at h
  · rename_i c i hc hi
    split at h
    case isFalse => cases h
    simp only [bind_ok] at h
    obtain ⟨z, hz, h⟩ := h
    cases h
    obtain ⟨a, b⟩ := hp _ _ _ _ _ hz ⟨fun p hp => by
      rcases List.mem_append.1 hp with hp | hp
      · exact numbered_in (hE.steps _ _ hc) p hp
      · rw [List.mem_singleton] at hp; subst hp; exact hE.message, g.tbl⟩
    refine ⟨⟨g.bvars, a.tbl⟩, b.apply (msubst_vi fun q hq => ?_)⟩
    rcases List.mem_append.1 (zip_snd_mem hq) with h | h
    · exact hl _ h
    · rw [List.mem_singleton] at h
      rw [h]
      refine .app fun a ha => ?_
      rw [List.mem_singleton] at ha
      exact ha ▸ .app hl
  · cases h

theorem alloc_vi {st : St} {q : TAQ} {fr : List Var} (hs : VOk S st) (hq : QOk S q) (hf : ∀ v ∈ fr, S v.sort) :
    VOk S (allocTA st q fr).2 ∧ VI S (allocTA st q fr).1 := by
  refine ⟨⟨hs.bvars, fun q' h => ?_⟩, .app fun a ha => ?_⟩
  · rcases List.mem_append.1 h with h | h
    · exact hs.tbl q' h
    · rw [List.mem_singleton] at h; exact h ▸ hq
  · obtain ⟨v, hv, rfl⟩ := List.mem_map.1 ha
    exact .var (hf v hv)

theorem parse_vi {E : Env} (hE : Closed S E) : ∀ (n : Nat) (r : Realm), PV S (parse E n r)
  | 0, r => fun es t st x h => by cases h
  | n + 1, r => by
    have ih := parse_vi hE n
    intro es t st x h hs
    cases t with
    | letin b t₁ t₂ =>
      simp only [parse, parseLet, bind_ok] at h
      obtain ⟨v, hv, y, hy, z, hz, h⟩ := h
      cases h
      have hb : parseBindings E [b] st = .ok ([v.1], v.2) := by simp only [parseBindings, hv, Out.bind]
      obtain ⟨a, _⟩ := parseBindings_vi hE hb hs
      obtain ⟨a, b1⟩ := ih _ _ _ _ _ hy a
      obtain ⟨a, b2⟩ := ih _ _ _ _ _ hz a
      refine ⟨a, b2.apply fun w hw => ?_⟩
      simp only [Subst.oneVar]
      split
      · exact b1
      · exact .var hw
    | ite c a b =>
      simp only [parse, parseIte, bind_ok] at h
      obtain ⟨v, hv, y, hy, z, hz, h⟩ := h
      cases h
      obtain ⟨a, b1⟩ := ih _ _ _ _ _ hv hs
      obtain ⟨a, b2⟩ := ih _ _ _ _ _ hy a
      obtain ⟨a, b3⟩ := ih _ _ _ _ _ hz a
      refine ⟨a, .app fun c hc => ?_⟩
      simp only [List.mem_cons, List.not_mem_nil, or_false] at hc
      rcases hc with rfl | rfl | rfl
      · exact b1
      · exact b2
      · exact b3
    | find vs c a b =>
      simp only [parse, parseFind, bind_ok] at h
      obtain ⟨s, _, z, hz, v, hv, x', hx, y, hy, h⟩ := h
      cases h
      obtain ⟨a, b1⟩ := ih _ _ _ _ _ hz (hs.store _)
      obtain ⟨a, bv⟩ := parseBindings_vi hE hv a
      obtain ⟨a, b2⟩ := ih _ _ _ _ _ hx a
      obtain ⟨a, b3⟩ := ih _ _ _ _ _ hy a
      have hf : ∀ w ∈ taFree v.1 [x'.1, y.1, z.1], S w.sort := taFree_sorts fun f hf => by
        simp only [List.mem_cons, List.not_mem_nil, or_false] at hf
        rcases hf with rfl | rfl | rfl
        · exact b2
        · exact b3
        · exact b1
      have := alloc_vi (q := .find v.1 (taFree v.1 [x'.1, y.1, z.1]) x'.1 y.1 z.1) (a.take z.2.bvars.length) (fun w hw => by
        rcases List.mem_append.1 hw with h | h
        · exact bv w h
        · exact hf w h) hf
      refine ⟨this.1, ?_⟩
      cases r
      · exact this.2
      · exact tryEval_vi (s := .message) this.2
    | quant k vs b =>
      simp only [parse, parseQuant, bind_ok] at h
      obtain ⟨s, _, v, hv, y, hy, h⟩ := h
      obtain ⟨a, bv⟩ := parseBindings_vi hE hv (hs.store _)
      obtain ⟨a, b1⟩ := ih _ _ _ _ _ hy a
      cases r
      · have hf : ∀ w ∈ taFree v.1 [y.1], S w.sort := taFree_sorts fun f hf => by rw [List.mem_singleton] at hf; exact hf ▸ b1
        cases h
        exact alloc_vi (a.take st.bvars.length) (fun w hw => by
          rcases List.mem_append.1 hw with h | h
          · exact bv w h
          · exact hf w h) hf
      · cases h
        exact ⟨a.take _, .quant b1⟩
    | cvar s => exact parseApplication_vi ih hE (show parseApplication (parse E n) E r es s none st = .ok x from h) hs
    | app f args => exact parseApplication_vi ih hE (show parseApplication (parse E n) E r es f (some args) st = .ok x from h) hs
    | infx op ts =>
      have h : parseInfix (parse E n) E r es op ts st = .ok x := h
      have sym : ∀ {g}, symInfix (parse E n .sym) g es ts st = .ok x → VOk S x.2 ∧ VI S x.1 := by
        intro g h
        cases ts with
        | nil => cases h
        | cons t l =>
          obtain ⟨y, hy, h⟩ := bind_ok.1 h
          obtain ⟨a, b⟩ := ih _ _ _ _ _ hy hs
          exact foldInfix_vi (ih _) h a b
      unfold parseInfix at h
      cases op with
      | hardEq =>
        simp only at h
        split at h
        · exact parseApp_vi ih h hs
        · exact ih _ _ _ _ _ h hs
      | eq =>
        cases r with
        | ev => exact parseApp_vi ih h hs
        | sym => exact ih _ _ _ _ _ h hs
      | neq => exact parseApplication_vi ih hE h hs
      | iff =>
        cases r with
        | ev => exact parseApp_vi ih h hs
        | sym => exact ih _ _ _ _ _ h hs
      | implies => exact parseApp_vi ih h hs
      | and =>
        cases r with
        | ev => exact parseApp_vi ih h hs
        | sym => exact sym h
      | or =>
        cases r with
        | ev => exact parseApp_vi ih h hs
        | sym => exact sym h
    | msg s args => exact stepMac_vi ih hE (body := (·.message)) h hs
    | cond s args => exact stepMac_vi ih hE (body := (·.condition)) h hs
    | mac m args =>
      have h : parseMac (parse E n) E r es m args st = .ok x := h
      unfold parseMac at h
      split at h
      · cases h
      rename_i c hc
      split at h
      case isFalse => cases h
      simp only [bind_ok] at h
      obtain ⟨y, hy, z, hz, h⟩ := h
      cases h
      obtain ⟨a, b1⟩ := parseMacArgs_vi ih hy hs
      obtain ⟨a', b2⟩ := ih _ _ _ _ _ hz ⟨numbered_in (hE.macros _ _ hc), a.tbl⟩
      exact ⟨⟨a.bvars, a'.tbl⟩, b2.apply (msubst_vi fun q hq => b1 _ (zip_snd_mem hq))⟩

end

/-! ## The functions made for quantifiers -/

/-- The sorts of an environment. -/
def InEnv (D : DEnv) (s : Srt) : Prop := s ∈ D.sorts.map Prod.snd

section
variable {D : DEnv} {fuel : Nat}

theorem sortD_in {n : String} (h : n ∈ D.sorts.map Prod.fst) : InEnv D (D.sortD n) := by
  unfold DEnv.sortD InEnv
  cases e : D.sorts.lookup n with
  | none => exact absurd h (by rw [← lookup_isSome, e]; simp)
  | some s => exact List.mem_map.2 ⟨_, lookup_map_mem e, rfl⟩

/-- What is kept while a file is read. -/
def TOk (D : DEnv) (st : St) : Prop := ∀ q ∈ st.tbl, QOk (InEnv D) q

theorem VOk.t {st : St} (h : VOk (InEnv D) st) : TOk D st := h.tbl

theorem VOk.trunc {S : Srt → Prop} {st : St} (h : VOk S st) (n : Nat) : VOk S (st.trunc n) := h.take n

theorem parseFresh_vi {vs : List Bnd} : ∀ {i st} {x : List Var × St}, parseFresh D i vs st = .ok x → VOk (InEnv D) st → VOk (InEnv D) x.2 := by
  induction vs with
  | nil => intro i st x h hs; cases h; exact hs
  | cons b l ih =>
    intro i st x h hs
    simp only [parseFresh, bind_ok] at h
    obtain ⟨s, hs', h⟩ := h
    split at h
    · cases h
    · obtain ⟨y, hy, h⟩ := bind_ok.1 h
      cases h
      have key := ih hy ⟨fun p hp => ?_, hs.tbl⟩
      · exact key
      rcases List.mem_append.1 hp with hp | hp
      · exact hs.bvars p hp
      · rw [List.mem_singleton] at hp
        subst hp
        obtain ⟨hm, rfl⟩ := sort_ok.1 hs'
        exact sortD_in hm

theorem parseCellArgs_vi (hE : Closed (InEnv D) D.toEnv) {k σ} : ∀ {l : List (Tm × Srt)} {st x}, parseCellArgs D.toEnv fuel k σ l st = .ok x →
    VOk (InEnv D) st → VOk (InEnv D) x.2
  | [], st, x, h, hs => by cases h; exact hs
  | (t, s) :: l, st, x, h, hs => by
    simp only [parseCellArgs, bind_ok] at h
    obtain ⟨y, hy, z, hz, h⟩ := h
    cases h
    have := parseCellArgs_vi hE hz (parse_vi hE _ _ _ _ _ _ hy (hs.trunc k)).1
    exact this

theorem parseAssign_vi (hE : Closed (InEnv D) D.toEnv) {name ps a st x} (h : parseAssign D fuel name ps a st = .ok x) (hs : VOk (InEnv D) st) :
    VOk (InEnv D) x.2 := by
  simp only [parseAssign, bind_ok] at h
  obtain ⟨v, hv, sorts, _, as, has, c, hc, h⟩ := h
  cases h
  have hv' : VOk (InEnv D) v.2 := by
    split at hv
    · exact parseFresh_vi hv (hs.trunc _)
    · cases hv; exact hs
  exact (parse_vi hE _ _ _ _ _ _ hc ((parseCellArgs_vi hE has hv').trunc _)).1

theorem parseAssigns_vi (hE : Closed (InEnv D) D.toEnv) {name ps} : ∀ {l : List AssignDecl} {st x}, parseAssigns D fuel name ps l st = .ok x →
    VOk (InEnv D) st → VOk (InEnv D) x.2
  | [], st, x, h, hs => by cases h; exact hs
  | a :: l, st, x, h, hs => by
    simp only [parseAssigns, bind_ok] at h
    obtain ⟨y, hy, z, hz, h⟩ := h
    cases h
    have := parseAssigns_vi hE hz (parseAssign_vi hE hy hs)
    exact this

theorem parseSteps_vi (hE : Closed (InEnv D) D.toEnv) : ∀ {l : List (String × Cache)} {st x}, (∀ n ps d, (n, Cache.step ps d) ∈ l → ∀ p ∈ ps, InEnv D p.2) →
    parseSteps D fuel l st = .ok x → TOk D st → TOk D x.2
  | [], st, x, hl, h, hs => by cases h; exact hs
  | (name, .step ps d) :: l, st, x, hl, h, hs => by
    simp only [parseSteps, parseStep, bind_ok] at h
    obtain ⟨y, ⟨m, hm, c, hc, as, has, e⟩, z, hz, h⟩ := h
    cases h
    have h1 := parse_vi hE _ _ _ _ _ _ hm ⟨fun p hp => by
      rcases List.mem_append.1 hp with hp | hp
      · exact numbered_in (hl _ _ _ (List.mem_cons_self ..)) p hp
      · rw [List.mem_singleton] at hp; subst hp; exact hE.message, hs⟩
    have h2 := parse_vi hE _ _ _ _ _ _ hc (h1.1.trunc _)
    have h3 := parseAssigns_vi hE has (h2.1.trunc _)
    cases e
    have := parseSteps_vi hE (fun n ps d h => hl n ps d (.tail _ h)) hz h3.t
    exact this
  | (name, .func i) :: l, st, x, hl, h, hs => parseSteps_vi hE (fun n ps d h => hl n ps d (.tail _ h)) (show parseSteps D fuel l st = .ok x from h) hs
  | (name, .cell i) :: l, st, x, hl, h, hs => parseSteps_vi hE (fun n ps d h => hl n ps d (.tail _ h)) (show parseSteps D fuel l st = .ok x from h) hs

theorem parseAssert_vi (hE : Closed (InEnv D) D.toEnv) {t st x} (h : parseAssert D.toEnv fuel t st = .ok x) (hs : TOk D st) : TOk D x.2 :=
  (parse_vi hE _ _ _ _ _ _ h ⟨fun p hp => absurd hp (by simp), hs⟩).1.t

theorem parseAsserts_vi (hE : Closed (InEnv D) D.toEnv) : ∀ {l st x}, parseAsserts D.toEnv fuel l st = .ok x → TOk D st → TOk D x.2
  | [], st, x, h, hs => by cases h; exact hs
  | t :: l, st, x, h, hs => by
    simp only [parseAsserts, bind_ok] at h
    obtain ⟨y, hy, z, hz, h⟩ := h
    cases h
    have := parseAsserts_vi hE hz (parseAssert_vi hE hy hs)
    exact this

theorem parseOrders_vi (hE : Closed (InEnv D) D.toEnv) : ∀ {l st x}, parseOrders D fuel l st = .ok x → TOk D st → TOk D x.2
  | [], st, x, h, hs => by cases h; exact hs
  | o :: l, st, x, h, hs => by
    simp only [parseOrders, parseOrderDecl, bind_ok] at h
    obtain ⟨y, ⟨ss, hss, g, hg, a, ha, b, hb, e⟩, z, hz, h⟩ := h
    cases h
    cases e
    have h0 : VOk (InEnv D) { st with bvars := numbered ((o.vars.map (·.1)).zip ss) } := by
      refine ⟨numbered_in fun p hp => ?_, hs⟩
      obtain ⟨hm, rfl⟩ := sortList_ok.1 hss
      obtain ⟨n, hn, e⟩ := List.mem_map.1 (List.of_mem_zip (a := p.1) (b := p.2) hp).2
      rw [← e]
      exact sortD_in (hm n hn)
    have h1 : VOk (InEnv D) g.2 := by
      unfold parseGuard at hg
      split at hg
      · exact (parse_vi hE _ _ _ _ _ _ hg h0).1
      · cases hg; exact h0
    have h2 := parse_vi hE _ _ _ _ _ _ ha (h1.trunc _)
    have h3 := parse_vi hE _ _ _ _ _ _ hb (h2.1.trunc _)
    have := parseOrders_vi hE hz (h3.1.trunc _).t
    exact this

end

theorem withTypes_keeps : ∀ (l : List String) (D : DEnv), ∀ p ∈ D.sorts, p ∈ (withTypes D l).sorts
  | [], _, _, h => h
  | _ :: l, _, p, h => withTypes_keeps l _ p (List.mem_append_left _ h)

theorem builtin_in (sh : Bool) (l : List Decl) {s : Srt} (h : s ∈ builtinSorts.map Prod.snd) : InEnv (fileEnv (env0 sh) l) s := by
  obtain ⟨p, hp, rfl⟩ := List.mem_map.1 h
  exact List.mem_map.2 ⟨p, withTypes_keeps _ _ p hp, rfl⟩

theorem sortD_file {sh : Bool} {l : List Decl} (hok : FileOk (env0 sh) l) {d : Decl} (hd : d ∈ l) {n : String} (hn : n ∈ d.sortNames) :
    InEnv (fileEnv (env0 sh) l) ((fileEnv (env0 sh) l).sortD n) := by
  refine sortD_in ?_
  rw [fileEnv_sorts, withTypes_names, List.mem_append]
  exact hok.sorts d hd n hn

/-- The sorts of the steps of an accepted file. -/
theorem steps_in {sh : Bool} {l : List Decl} (hok : FileOk (env0 sh) l) {n ps d} (h : (n, Cache.step ps d) ∈ (fileEnv (env0 sh) l).functions) :
    ∀ p ∈ ps, InEnv (fileEnv (env0 sh) l) p.2 := by
  rcases mem_fileEnv h with h | ⟨x, hx, h⟩ | h
  · obtain ⟨i, e, _⟩ := env0_base sh _ h
    cases e
  · cases x <;> simp only [mkCache, Option.some.injEq, Prod.mk.injEq, reduceCtorEq, and_false] at h
    obtain ⟨-, e⟩ := h
    cases e
    intro p hp
    obtain ⟨b, hb, rfl⟩ := List.mem_map.1 hp
    exact sortD_file hok hx (List.mem_map.2 ⟨b, hb, rfl⟩)
  · cases h
    intro p hp
    cases hp

theorem macs_in {sh : Bool} {l : List Decl} (hok : FileOk (env0 sh) l) {n m} (h : (n, m) ∈ (fileEnv (env0 sh) l).macros) :
    ∀ p ∈ m.params, InEnv (fileEnv (env0 sh) l) p.2 := by
  simp only [fileEnv, addDecls, (withTypes_rest _ _).2.1, List.mem_append, List.mem_filterMap] at h
  rcases h with h | ⟨x, hx, h⟩
  · cases h
  · cases x <;> simp only [mkMac, Option.some.injEq, Prod.mk.injEq, reduceCtorEq] at h
    obtain ⟨-, rfl⟩ := h
    intro p hp
    obtain ⟨b, hb, rfl⟩ := List.mem_map.1 hp
    exact sortD_file hok hx (List.mem_map.2 ⟨b, hb, rfl⟩)

theorem closed_file {sh : Bool} {l : List Decl} (hok : FileOk (env0 sh) l) : Closed (InEnv (fileEnv (env0 sh) l)) (fileEnv (env0 sh) l).toEnv where
  sorts n s h := List.mem_map.2 ⟨_, lookup_map_mem h, rfl⟩
  steps n c h p hp := by
    obtain ⟨x, hx, e⟩ := Option.bind_eq_some_iff.1 h
    cases x <;> simp only [Cache.stepInfo, Option.some.injEq, reduceCtorEq] at e
    subst e
    exact steps_in hok (lookup_map_mem hx) p hp
  macros n c h p hp := macs_in hok (lookup_map_mem h) p hp
  message := builtin_in sh l (by decide)
  realm r s s' h hs := by
    by_cases e : s = s'
    · exact e ▸ hs
    · have : s ∈ builtinSorts.map Prod.snd := by
        cases r
        · simp [eqRealm, e] at h
        · revert h
          clear hs
          cases s <;> cases s' <;> first
            | (intro; decide)
            | (intro h; exfalso; simp_all [eqRealm, isEvaluatable, evaluated])
      exact builtin_in sh l this

/-- **The functions made for the quantifiers of an accepted file are over the sorts of the file.** -/
theorem load_tbl {ord : List (String × Cache) → List (String × Cache)} (hord : ∀ l, (ord l).Perm l) {sh ig : Bool} {fuel : Nat} {l : List Decl}
    {P : LProblem} (h : load ord fuel ig (env0 sh) l = .ok P) : ∀ q ∈ P.tbl, QOk (InEnv P.env) q := by
  have hL := load_loaded hord (env0_base sh) h
  simp only [load, bind_ok] at h
  obtain ⟨D1, h1, ⟨F, q⟩, h2, ss, h3, as, h4, qq, h5, cs, h6, ls, h7, os, h8, h9⟩ := h
  have hacc : (declareSorts l (env0 sh)).bind (fetchAll l) = .ok (F, q) := bind_ok.2 ⟨D1, h1, h2⟩
  obtain ⟨hok, e1, -⟩ := (C24_accepted_iff _ l F q).1 hacc
  simp only at h3 h4 h5 h6 h7 h8 h9
  rw [e1] at h3 h4 h5 h6 h7 h8 h9
  have hE := closed_file hok
  have k3 : TOk _ ss.2 := parseSteps_vi hE (fun n ps d hm => steps_in hok ((hord _).mem_iff.1 hm)) h3 (fun p hp => by cases hp)
  have k4 := parseAsserts_vi hE h4 k3
  have k5 := parseAssert_vi hE h5 k4
  have k7 : TOk (fileEnv (env0 sh) l) ls.2 := by
    cases ig
    · exact parseAsserts_vi hE h7 k5
    · simp only [if_true, Out.ok.injEq] at h7
      subst h7
      exact k5
  have k8 := parseOrders_vi hE h8 k7
  cases hsw : swapInit ss.1.1 with
  | none => rw [hsw] at h9; cases h9
  | some steps =>
    rw [hsw] at h9
    cases h9
    exact k8

end Dcl
end CV
