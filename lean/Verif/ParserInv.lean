import Verif.ParserProps
/-
Facts about every run of the elaborator, clean or not: sort cells keep their value (C34), the functions it creates are
not circular (so that interpretations exist, C20), and it does not panic (C52).
-/
set_option linter.unusedSimpArgs false
namespace CV
namespace Prs
open Fm

/-- Every cell determined in `a` has the same sort in `b`. -/
def SLe (a b : Store) : Prop := a.length ≤ b.length ∧ ∀ (n : Nat) s, (a[n]?).join = some s → (b[n]?).join = some s

theorem SLe.refl (a : Store) : SLe a a := ⟨Nat.le_refl _, fun _ _ h => h⟩

theorem SLe.trans {a b c : Store} (h : SLe a b) (k : SLe b c) : SLe a c :=
  ⟨Nat.le_trans h.1 k.1, fun n s e => k.2 n s (h.2 n s e)⟩

theorem SLe.app (a b : Store) : SLe a (a ++ b) := by
  refine ⟨by simp, fun n s h => ?_⟩
  by_cases hn : n < a.length
  · rw [List.getElem?_append_left hn]; exact h
  · rw [List.getElem?_eq_none (by omega)] at h; cases h

theorem Px.set_le {st st' : Store} {s : Srt} {p : Px} (h : p.set st s = some st') : SLe st st' := by
  cases p with
  | stat => cases h
  | var n =>
    simp only [Px.set] at h
    split at h
    case isFalse => cases h
    case isTrue hn =>
      cases h
      refine ⟨by simp, fun m s' e => ?_⟩
      by_cases hm : n = m
      · subst hm; rw [hn.2] at e; cases e
      · rw [List.getElem?_set_ne hm]; exact e

theorem Px.expects_le {st st' : Store} {r : Realm} {s : Srt} {p : Px} (h : p.expects st r s = some st') : SLe st st' := by
  simp only [Px.expects] at h
  split at h
  · split at h
    · cases h; exact .refl _
    · cases h
  · exact Px.set_le h

theorem Px.unify_le {st : Store} {r : Realm} {p q : Px} {u : Srt × Store} (h : p.unify st r q = some u) : SLe st u.2 := by
  simp only [Px.unify] at h
  split at h
  · split at h
    · cases h; exact .refl _
    · cases h
  · obtain ⟨st', h1, rfl⟩ := Option.map_eq_some_iff.1 h; exact Px.set_le h1
  · obtain ⟨st', h1, rfl⟩ := Option.map_eq_some_iff.1 h; exact Px.set_le h1
  · cases h

/-- All functions created by the elaborator that occur have a number below `n`. -/
inductive TaqLt (n : Nat) : Fm PF → Prop
  | var {v} : TaqLt n (.var v)
  | app {f args} : (∀ m, f = .taq m → m < n) → (∀ a ∈ args, TaqLt n a) → TaqLt n (.app f args)
  | quant {q vs b} : TaqLt n b → TaqLt n (.quant q vs b)

theorem TaqLt.mono {n m : Nat} (h : n ≤ m) {φ : Fm PF} (k : TaqLt n φ) : TaqLt m φ := by
  induction k with
  | var => exact .var
  | app h1 _ ih => exact .app (fun x e => Nat.lt_of_lt_of_le (h1 x e) h) ih
  | quant _ ih => exact .quant ih

/-- The bodies of entry `n` only use earlier functions. -/
def TAQ.Ok (n : Nat) : TAQ → Prop
  | .quant _ _ _ b => TaqLt n b
  | .find _ _ c l r => TaqLt n c ∧ TaqLt n l ∧ TaqLt n r

/-- No circularity among the created functions. -/
def TblOk (tbl : List TAQ) : Prop := ∀ (n : Nat) (q : TAQ), tbl[n]? = some q → q.Ok n

/-- Declared functions are not functions created by the elaborator. -/
def Env.NoTaq (E : Env) : Prop := ∀ f i, E.functions f = some i → ∀ m, i.sym ≠ .taq m

structure Inv (st st' : St) (φ : Fm PF) : Prop where
  store : SLe st.store st'.store
  pre : st.tbl <+: st'.tbl
  ok : TblOk st.tbl → TblOk st'.tbl
  lt : TaqLt st'.tbl.length φ

structure InvL (st st' : St) (φs : List (Fm PF)) : Prop where
  store : SLe st.store st'.store
  pre : st.tbl <+: st'.tbl
  ok : TblOk st.tbl → TblOk st'.tbl
  lt : ∀ φ ∈ φs, TaqLt st'.tbl.length φ

def PInv (p : Realm → Px → Tm → St → PRes) : Prop := ∀ r es t st φ st', p r es t st = .ok (φ, st') → Inv st st' φ

theorem parseList_inv {q : Px → Tm → St → PRes} (hq : ∀ es t st φ st', q es t st = .ok (φ, st') → Inv st st' φ) :
    ∀ (l : List (Px × Tm)) (st : St) (x : List (Fm PF) × St), parseList q l st = .ok x → InvL st x.2 x.1 := by
  intro l
  induction l with
  | nil =>
    intro st x h; simp only [parseList] at h; cases h
    exact ⟨.refl _, List.prefix_refl _, id, fun _ h => (by cases h)⟩
  | cons z l ih =>
    intro st x h
    simp only [parseList] at h
    obtain ⟨y, hy, h⟩ := Out.bind_ok h
    obtain ⟨w, hw, h⟩ := Out.bind_ok h
    have := Out.ok.inj h
    subst this
    have i1 := hq _ _ _ _ _ hy
    have i2 := ih _ _ hw
    refine ⟨i1.store.trans i2.store, i1.pre.trans i2.pre, fun k => i2.ok (i1.ok k), fun φ hφ => ?_⟩
    rcases List.mem_cons.1 hφ with rfl | hφ
    · exact i1.lt.mono i2.pre.length_le
    · exact i2.lt φ hφ

theorem parseMacArgs_inv {p : Realm → Px → Tm → St → PRes} (hp : PInv p) (r : Realm) :
    ∀ (l : List ((String × Srt) × Tm)) (st : St) (x : List (Fm PF) × St), parseMacArgs p r l st = .ok x → InvL st x.2 x.1 := by
  intro l
  induction l with
  | nil =>
    intro st x h; simp only [parseMacArgs] at h; cases h
    exact ⟨.refl _, List.prefix_refl _, id, fun _ h => (by cases h)⟩
  | cons z l ih =>
    intro st x h
    simp only [parseMacArgs] at h
    obtain ⟨y, hy, h⟩ := Out.bind_ok h
    obtain ⟨w, hw, h⟩ := Out.bind_ok h
    have := Out.ok.inj h
    subst this
    have i1 := hp _ _ _ _ _ _ hy
    have i2 := ih _ _ hw
    refine ⟨i1.store.trans i2.store, i1.pre.trans i2.pre, fun k => i2.ok (i1.ok k), fun φ hφ => ?_⟩
    rcases List.mem_cons.1 hφ with rfl | hφ
    · exact i1.lt.mono i2.pre.length_le
    · exact i2.lt φ hφ

theorem tryEval_lt {n s f} (h : TaqLt n f) : TaqLt n (tryEval s f) := by
  unfold tryEval
  split
  · rename_i g hg
    refine .app (fun m e => ?_) (fun a ha => by simp at ha; subst ha; exact h)
    subst e
    cases s <;> cases hg
  · exact h

theorem buildApp_lt {n r i store o as} (hi : ∀ m, i.sym = .taq m → m < n) (h : ∀ a ∈ as, TaqLt n a) :
    TaqLt n (buildApp r i store o as) := by
  have h0 : TaqLt n (if i.isName then .app .nameToMsg [.app i.sym as] else .app i.sym as : Fm PF) := by
    split
    · exact .app (fun m e => by cases e) (fun a ha => by simp at ha; subst ha; exact .app hi h)
    · exact .app hi h
  simp only [buildApp]
  split
  · split
    · exact tryEval_lt h0
    · exact h0
  · exact h0

theorem inst_le (sig : FSig) (st : Store) (n : Nat) : SLe st (sig.inst st n).2.2 := by
  cases sig
  · exact .refl _
  · exact .refl _
  · exact .app _ _
  · exact .app _ _

theorem parseApp_inv {p : Realm → Px → Tm → St → PRes} (hp : PInv p) {r es i args st φ st'} (hi : ∀ m, i.sym ≠ .taq m)
    (h : parseApp p r es i args st = .ok (φ, st')) : Inv st st' φ := by
  simp only [parseApp] at h
  obtain ⟨x, hx, h⟩ := Out.bind_ok h
  have g := parseList_inv (fun es t st φ st' => hp _ es t st φ st') _ _ _ hx
  split at h
  case isFalse => cases h
  case isTrue =>
    obtain ⟨u, hu, h⟩ := Out.bind_ok h
    have h1 := (Prod.mk.inj (Out.ok.inj h)).1
    have h2 := (Prod.mk.inj (Out.ok.inj h)).2
    subst h1; subst h2
    refine ⟨(inst_le _ _ _).trans (g.store.trans (Px.unify_le (Out.ofOption_ok hu))), g.pre, g.ok, ?_⟩
    exact buildApp_lt (fun m e => absurd e (hi m)) g.lt

theorem getFun_noTaq {E : Env} (hE : E.NoTaq) {r f i} (h : getFun E r f = some i) : ∀ m, i.sym ≠ .taq m := by
  intro m
  simp only [getFun] at h
  split at h
  · cases h; cases r <;> simp
  · split at h
    · cases h; cases r <;> simp
    · split at h
      · cases h; cases r <;> simp
      · exact hE f i h m

theorem parseVar_inv {r es v st φ st'} (h : parseVar r es v st = .ok (φ, st')) : Inv st st' φ := by
  simp only [parseVar] at h
  split at h
  · cases h
  · split at h
    · rename_i s hs
      split at h
      · cases h
      · rename_i g hg
        obtain ⟨u, hu, h⟩ := Out.bind_ok h
        have h1 := (Prod.mk.inj (Out.ok.inj h)).1
        have h2 := (Prod.mk.inj (Out.ok.inj h)).2
        subst h1; subst h2
        refine ⟨Px.expects_le (Out.ofOption_ok hu), List.prefix_refl _, id, ?_⟩
        refine .app (fun m e => ?_) (fun a ha => by simp at ha; subst ha; exact .var)
        subst e
        revert hg
        cases v.sort <;> intro hg <;> cases hg
    · obtain ⟨u, hu, h⟩ := Out.bind_ok h
      have h1 := (Prod.mk.inj (Out.ok.inj h)).1
      have h2 := (Prod.mk.inj (Out.ok.inj h)).2
      subst h1; subst h2
      exact ⟨Px.unify_le (Out.ofOption_ok hu), List.prefix_refl _, id, .var⟩

theorem parseApplication_inv {p : Realm → Px → Tm → St → PRes} (hp : PInv p) {E : Env} (hE : E.NoTaq) {r es f args st φ st'}
    (h : parseApplication p E r es f args st = .ok (φ, st')) : Inv st st' φ := by
  cases args with
  | none =>
    simp only [parseApplication] at h
    split at h
    · exact parseVar_inv h
    · obtain ⟨i, hi, h⟩ := Out.bind_ok h
      exact parseApp_inv hp (getFun_noTaq hE (Out.ofOption_ok hi)) h
  | some args =>
    simp only [parseApplication] at h
    obtain ⟨i, hi, h⟩ := Out.bind_ok h
    exact parseApp_inv hp (getFun_noTaq hE (Out.ofOption_ok hi)) h

theorem TaqLt.apply {n : Nat} {s : Subst PF} (hs : ∀ v, TaqLt n (s v)) {φ : Fm PF} (h : TaqLt n φ) : TaqLt n (s.apply φ) := by
  induction h with
  | var => exact hs _
  | app h1 _ ih =>
    rw [Subst.apply, Subst.applys_eq]
    refine .app h1 (fun a ha => ?_)
    obtain ⟨b, hb, rfl⟩ := List.mem_map.1 ha
    exact ih b hb
  | quant _ ih => exact .quant ih

theorem msubst_lt {n : Nat} {l : MSubst PF} (h : ∀ p ∈ l, TaqLt n p.2) (v : Var) : TaqLt n (l.get v) := by
  simp only [MSubst.get, MSubst.maybeGet]
  cases hf : l.find? (fun o => o.1 == v.id) with
  | none => exact .var
  | some p => exact h p (List.mem_of_find?_eq_some hf)

theorem zip_snd_mem {α β : Type} {l : List α} {m : List β} {p : α × β} (h : p ∈ l.zip m) : p.2 ∈ m :=
  (List.of_mem_zip (a := p.1) (b := p.2) h).2

theorem parseBinding_inv {E : Env} {b : Bnd} {st : St} {x : Var × St} (h : parseBinding E b st = .ok x) :
    x.2.store = st.store ∧ x.2.tbl = st.tbl := by
  simp only [parseBinding] at h
  split at h
  · cases h
  · split at h
    · cases h
    · have := Out.ok.inj h
      subst this
      exact ⟨rfl, rfl⟩

theorem parseBindings_inv {E : Env} : ∀ (l : List Bnd) (st : St) (x : List Var × St), parseBindings E l st = .ok x →
    x.2.store = st.store ∧ x.2.tbl = st.tbl := by
  intro l
  induction l with
  | nil => intro st x h; simp only [parseBindings] at h; cases h; exact ⟨rfl, rfl⟩
  | cons b l ih =>
    intro st x h
    simp only [parseBindings] at h
    obtain ⟨y, hy, h⟩ := Out.bind_ok h
    obtain ⟨w, hw, h⟩ := Out.bind_ok h
    have := Out.ok.inj h
    subst this
    have i1 := parseBinding_inv hy
    have i2 := ih _ _ hw
    exact ⟨i2.1.trans i1.1, i2.2.trans i1.2⟩

theorem Inv.trans {a b c : St} {φ ψ : Fm PF} (h : Inv a b φ) (k : Inv b c ψ) : Inv a c ψ :=
  ⟨h.store.trans k.store, h.pre.trans k.pre, fun x => k.ok (h.ok x), k.lt⟩

theorem InvL.trans {a b c : St} {φs : List (Fm PF)} {ψ : Fm PF} (h : InvL a b φs) (k : Inv b c ψ) : Inv a c ψ :=
  ⟨h.store.trans k.store, h.pre.trans k.pre, fun x => k.ok (h.ok x), k.lt⟩

/-- Replace the start by one with the same store and functions. -/
theorem Inv.start {a a' b : St} {φ : Fm PF} (h : Inv a b φ) (hs : SLe a'.store a.store) (ht : a.tbl = a'.tbl) : Inv a' b φ :=
  ⟨hs.trans h.store, ht ▸ h.pre, fun x => h.ok (ht ▸ x), h.lt⟩

/-- Replace the end, and the formula. -/
theorem Inv.stop {a b b' : St} {φ ψ : Fm PF} (h : Inv a b φ) (hs : b'.store = b.store) (ht : b'.tbl = b.tbl)
    (hψ : TaqLt b.tbl.length ψ) : Inv a b' ψ :=
  ⟨hs ▸ h.store, ht ▸ h.pre, fun x => ht ▸ h.ok x, by rw [ht]; exact hψ⟩

theorem parseLet_inv {p : Realm → Px → Tm → St → PRes} (hp : PInv p) {E r es b t₁ t₂ st φ st'}
    (h : parseLet p E r es b t₁ t₂ st = .ok (φ, st')) : Inv st st' φ := by
  simp only [parseLet] at h
  obtain ⟨v, hv, h⟩ := Out.bind_ok h
  obtain ⟨x, hx, h⟩ := Out.bind_ok h
  obtain ⟨y, hy, h⟩ := Out.bind_ok h
  have h1 := (Prod.mk.inj (Out.ok.inj h)).1
  have h2 := (Prod.mk.inj (Out.ok.inj h)).2
  subst h1; subst h2
  have i0 := parseBinding_inv hv
  have i1 := (hp _ _ _ _ _ _ hx).start (a' := st) (i0.1 ▸ .refl _) i0.2
  have i2 := hp _ _ _ _ _ _ hy
  refine (i1.trans i2).stop rfl rfl (i2.lt.apply fun w => ?_)
  simp only [Subst.oneVar]
  split
  · exact i1.lt.mono i2.pre.length_le
  · exact .var

theorem parseIte_inv {p : Realm → Px → Tm → St → PRes} (hp : PInv p) {r es c a b st φ st'}
    (h : parseIte p r es c a b st = .ok (φ, st')) : Inv st st' φ := by
  simp only [parseIte] at h
  obtain ⟨x, hx, h⟩ := Out.bind_ok h
  obtain ⟨y, hy, h⟩ := Out.bind_ok h
  obtain ⟨z, hz, h⟩ := Out.bind_ok h
  have h1 := (Prod.mk.inj (Out.ok.inj h)).1
  have h2 := (Prod.mk.inj (Out.ok.inj h)).2
  subst h1; subst h2
  have i1 := hp _ _ _ _ _ _ hx
  have i2 := hp _ _ _ _ _ _ hy
  have i3 := hp _ _ _ _ _ _ hz
  refine ((i1.trans i2).trans i3).stop rfl rfl (.app (fun m e => by cases r <;> cases e) fun a ha => ?_)
  simp only [List.mem_cons, List.not_mem_nil, or_false] at ha
  rcases ha with rfl | rfl | rfl
  · exact i1.lt.mono (i2.pre.trans i3.pre).length_le
  · exact i2.lt.mono i3.pre.length_le
  · exact i3.lt

/-- Creating a function. -/
theorem allocTA_inv {a st : St} {ψ : Fm PF} {q : TAQ} {free : List Var} (h : Inv a st ψ) (hq : q.Ok st.tbl.length) :
    Inv a (allocTA st q free).2 (allocTA st q free).1 := by
  refine ⟨h.store, h.pre.trans (List.prefix_append _ _), fun k => ?_, ?_⟩
  · have h0 := h.ok k
    intro n q' hn
    simp only [allocTA] at hn
    by_cases hl : n < st.tbl.length
    · rw [List.getElem?_append_left hl] at hn; exact h0 n q' hn
    · rw [List.getElem?_append_right (by omega)] at hn
      have : n - st.tbl.length = 0 := by
        cases hd : n - st.tbl.length with
        | zero => rfl
        | succ k => rw [hd] at hn; simp at hn
      rw [this] at hn
      simp at hn
      subst hn
      have : n = st.tbl.length := by omega
      rw [this]; exact hq
  · refine .app (fun m e => ?_) (fun a ha => ?_)
    · cases e; simp [allocTA]
    · obtain ⟨v, _, rfl⟩ := List.mem_map.1 ha; exact .var

theorem parseQuant_inv {p : Realm → Px → Tm → St → PRes} (hp : PInv p) {E r es k vs b st φ st'}
    (h : parseQuant p E r es k vs b st = .ok (φ, st')) : Inv st st' φ := by
  simp only [parseQuant] at h
  obtain ⟨store, hs, h⟩ := Out.bind_ok h
  obtain ⟨v, hv, h⟩ := Out.bind_ok h
  obtain ⟨x, hx, h⟩ := Out.bind_ok h
  have i0 := parseBindings_inv _ _ _ hv
  have i1 := (hp _ _ _ _ _ _ hx).start (a' := st) (by rw [i0.1]; exact Px.expects_le (Out.ofOption_ok hs)) i0.2
  cases r with
  | ev =>
    have h1 := (Prod.mk.inj (Out.ok.inj h)).1
    have h2 := (Prod.mk.inj (Out.ok.inj h)).2
    subst h1; subst h2
    exact i1.stop rfl rfl (.quant i1.lt)
  | sym =>
    have h := Out.ok.inj h
    have h1 := congrArg Prod.fst h
    have h2 := congrArg Prod.snd h
    simp only at h1 h2
    subst h1; subst h2
    refine allocTA_inv (ψ := x.1) (i1.stop rfl rfl i1.lt) ?_
    exact i1.lt

theorem parseFind_inv {p : Realm → Px → Tm → St → PRes} (hp : PInv p) {E r es vs c a b st φ st'}
    (h : parseFind p E r es vs c a b st = .ok (φ, st')) : Inv st st' φ := by
  simp only [parseFind] at h
  obtain ⟨store, hs, h⟩ := Out.bind_ok h
  obtain ⟨z, hz, h⟩ := Out.bind_ok h
  obtain ⟨v, hv, h⟩ := Out.bind_ok h
  obtain ⟨x, hx, h⟩ := Out.bind_ok h
  obtain ⟨y, hy, h⟩ := Out.bind_ok h
  have h1 := (Prod.mk.inj (Out.ok.inj h)).1
  have h2 := (Prod.mk.inj (Out.ok.inj h)).2
  subst h1; subst h2
  have iz := (hp _ _ _ _ _ _ hz).start (a' := st) (Px.expects_le (Out.ofOption_ok hs)) rfl
  have i0 := parseBindings_inv _ _ _ hv
  have ix := (hp _ _ _ _ _ _ hx).start (a' := z.2) (by rw [i0.1]; exact .refl _) i0.2
  have iy := hp _ _ _ _ _ _ hy
  have i := (iz.trans ix).trans iy
  have ia := allocTA_inv (ψ := y.1) (st := { y.2 with bvars := y.2.bvars.take z.2.bvars.length })
    (q := .find v.1 (taFree v.1 [x.1, y.1, z.1]) x.1 y.1 z.1) (free := taFree v.1 [x.1, y.1, z.1]) (i.stop rfl rfl i.lt) (by
      exact ⟨ix.lt.mono iy.pre.length_le, iy.lt, iz.lt.mono (ix.pre.trans iy.pre).length_le⟩)
  refine ia.stop rfl rfl ?_
  cases r
  · exact ia.lt
  · exact tryEval_lt (s := .message) ia.lt

theorem foldInfix_inv {q : Px → Tm → St → PRes} (hq : ∀ es t st φ st', q es t st = .ok (φ, st') → Inv st st' φ) {g : PF}
    (hg : ∀ m, g ≠ .taq m) {es : Px} {a : St} : ∀ (l : List Tm) (acc : Fm PF) (st : St) (φ : Fm PF) (st' : St), Inv a st acc →
      foldInfix q g es l acc st = .ok (φ, st') → Inv a st' φ := by
  intro l
  induction l with
  | nil =>
    intro acc st φ st' h h2
    simp only [foldInfix] at h2
    have e1 := (Prod.mk.inj (Out.ok.inj h2)).1
    have e2 := (Prod.mk.inj (Out.ok.inj h2)).2
    subst e1; subst e2; exact h
  | cons t l ih =>
    intro acc st φ st' h h2
    simp only [foldInfix] at h2
    obtain ⟨x, hx, h2⟩ := Out.bind_ok h2
    have i1 := hq _ _ _ _ _ hx
    refine ih _ _ _ _ ((h.trans i1).stop rfl rfl (.app (fun m e => absurd e (hg m)) fun b hb => ?_)) h2
    simp only [List.mem_cons, List.not_mem_nil, or_false] at hb
    rcases hb with rfl | rfl
    · exact h.lt.mono i1.pre.length_le
    · exact i1.lt

theorem symInfix_inv {q : Px → Tm → St → PRes} (hq : ∀ es t st φ st', q es t st = .ok (φ, st') → Inv st st' φ) {g : PF}
    (hg : ∀ m, g ≠ .taq m) {es : Px} {l : List Tm} {st : St} {φ : Fm PF} {st' : St}
    (h : symInfix q g es l st = .ok (φ, st')) : Inv st st' φ := by
  cases l with
  | nil => cases h
  | cons t l =>
    simp only [symInfix] at h
    obtain ⟨x, hx, h⟩ := Out.bind_ok h
    exact foldInfix_inv hq hg _ _ _ _ _ (hq _ _ _ _ _ hx) h

theorem parseInfix_inv {p : Realm → Px → Tm → St → PRes} (hp : PInv p) {E : Env} (hE : E.NoTaq) {r es op ts st φ st'}
    (h : parseInfix p E r es op ts st = .ok (φ, st')) : Inv st st' φ := by
  cases op <;> simp only [parseInfix] at h
  case hardEq =>
    split at h
    · exact parseApp_inv hp (fun m e => by cases e) h
    · exact hp _ _ _ _ _ _ h
  case eq => cases r; exact hp _ _ _ _ _ _ h; exact parseApp_inv hp (fun m e => by cases e) h
  case neq => exact parseApplication_inv hp hE h
  case iff => cases r; exact hp _ _ _ _ _ _ h; exact parseApp_inv hp (fun m e => by cases e) h
  case implies => exact parseApp_inv hp (fun m e => by cases r <;> cases e) h
  case and =>
    cases r
    · exact symInfix_inv (fun es t st φ st' => hp _ es t st φ st') (fun m e => by cases e) h
    · exact parseApp_inv hp (fun m e => by cases e) h
  case or =>
    cases r
    · exact symInfix_inv (fun es t st φ st' => hp _ es t st φ st') (fun m e => by cases e) h
    · exact parseApp_inv hp (fun m e => by cases e) h

theorem funArgs_lt {n : Nat} {φ : Fm PF} (h : TaqLt n φ) {as : List (Fm PF)} (e : funArgs φ = some as) : ∀ a ∈ as, TaqLt n a := by
  cases h with
  | var => cases e
  | app _ h2 => cases e; exact h2
  | quant => cases e

theorem parseStepMac_inv {p : Realm → Px → Tm → St → PRes} (hp : PInv p) {E : Env} (hE : E.NoTaq) {r es s args body st φ st'}
    (h : parseStepMac p E r es s args body st = .ok (φ, st')) : Inv st st' φ := by
  simp only [parseStepMac] at h
  obtain ⟨x, hx, h⟩ := Out.bind_ok h
  have i1 := parseApplication_inv hp hE hx
  split at h
  · cases h
  · rename_i as has
    have hl := funArgs_lt i1.lt has
    split at h
    · rename_i c i hc hi
      split at h
      · obtain ⟨y, hy, h⟩ := Out.bind_ok h
        have h1 := (Prod.mk.inj (Out.ok.inj h)).1
        have h2 := (Prod.mk.inj (Out.ok.inj h)).2
        subst h1; subst h2
        have i2 := (hp _ _ _ _ _ _ hy).start (a' := x.2) (.refl _) rfl
        refine (i1.trans i2).stop rfl rfl (i2.lt.apply (msubst_lt fun q hq => ?_))
        have := zip_snd_mem hq
        rcases List.mem_append.1 this with h | h
        · exact (hl _ h).mono i2.pre.length_le
        · simp only [List.mem_cons, List.not_mem_nil, or_false] at h
          rw [h]
          refine .app (fun m e => by cases e) fun a ha => ?_
          simp only [List.mem_cons, List.not_mem_nil, or_false] at ha
          subst ha
          exact .app (fun m e => absurd e (hE _ _ hi m)) fun a ha => (hl a ha).mono i2.pre.length_le
      · cases h
    · cases h

theorem parseMac_inv {p : Realm → Px → Tm → St → PRes} (hp : PInv p) {E : Env} {r es m args st φ st'}
    (h : parseMac p E r es m args st = .ok (φ, st')) : Inv st st' φ := by
  simp only [parseMac] at h
  split at h
  · cases h
  · split at h
    · obtain ⟨x, hx, h⟩ := Out.bind_ok h
      obtain ⟨y, hy, h⟩ := Out.bind_ok h
      have h1 := (Prod.mk.inj (Out.ok.inj h)).1
      have h2 := (Prod.mk.inj (Out.ok.inj h)).2
      subst h1; subst h2
      have i1 := parseMacArgs_inv hp _ _ _ _ hx
      have i2 := (hp _ _ _ _ _ _ hy).start (a' := x.2) (.refl _) rfl
      refine (i1.trans i2).stop rfl rfl (i2.lt.apply (msubst_lt fun q hq => ?_))
      exact (i1.lt _ (zip_snd_mem hq)).mono i2.pre.length_le
    · cases h

/-- Every successful run satisfies the invariant. -/
theorem parse_inv (E : Env) (hE : E.NoTaq) : ∀ n, PInv (parse E n)
  | 0 => fun r es t st φ st' h => by cases h
  | n + 1 => by
    intro r es t st φ st' h
    have hp := parse_inv E hE n
    cases t <;> simp only [parse] at h
    case letin => exact parseLet_inv hp h
    case ite => exact parseIte_inv hp h
    case find => exact parseFind_inv hp h
    case quant => exact parseQuant_inv hp h
    case cvar => exact parseApplication_inv hp hE h
    case app => exact parseApplication_inv hp hE h
    case infx => exact parseInfix_inv hp hE h
    case msg => exact parseStepMac_inv hp hE h
    case cond => exact parseStepMac_inv hp hE h
    case mac => exact parseMac_inv hp h

/-! ## Interpretations exist -/

section
variable {D : Type}

/-- Interpret one created function. -/
def Sem.setTaq (I : Sem D) (n : Nat) (g : List D → D) : Sem D :=
  { I with M := { I.M with fn := fun f ds => if f = .taq n then g ds else I.M.fn f ds } }

/-- The meaning of an entry as a function of its parameters. -/
def Sem.entry (I : Sem D) : TAQ → List D → D
  | .quant k bs fr b, ds => I.symQ k (bs.map Var.sort) fun es =>
      b.eval I.M (setMany I.junk (setMany I.junk (fun _ => I.junk) fr ds) bs es)
  | .find bs fr c l r, ds => I.symFind (bs.map Var.sort)
      (fun es => c.eval I.M (setMany I.junk (setMany I.junk (fun _ => I.junk) fr ds) bs es))
      (fun es => l.eval I.M (setMany I.junk (setMany I.junk (fun _ => I.junk) fr ds) bs es))
      (r.eval I.M (setMany I.junk (fun _ => I.junk) fr ds))

/-- Interpret the created functions one after the other. -/
def Sem.realize (I : Sem D) : Nat → List TAQ → Sem D
  | _, [] => I
  | n, q :: l => Sem.realize (I.setTaq n (I.entry q)) (n + 1) l

theorem eval_setTaq (I : Sem D) (n : Nat) (g : List D → D) {m : Nat} (hm : m ≤ n) {φ : Fm PF} (h : TaqLt m φ) :
    ∀ ρ, φ.eval (I.setTaq n g).M ρ = φ.eval I.M ρ := by
  induction h with
  | var => intro ρ; rfl
  | app h1 _ ih =>
    rename_i f args _
    intro ρ
    simp only [Fm.eval, Fm.evals_eq]
    have : args.map (eval (I.setTaq n g).M ρ) = args.map (eval I.M ρ) := List.map_congr_left fun a ha => ih a ha ρ
    rw [this]
    show (if f = .taq n then _ else _) = _
    rw [if_neg]
    intro e
    have := h1 n e
    omega
  | quant _ ih =>
    intro ρ
    simp only [Fm.eval, ih]
    rename_i q vs b _
    have : ∀ (P : Valn D → Prop) ρ, quantVal (I.setTaq n g).M q vs P ρ = quantVal I.M q vs P ρ := by
      intro P
      induction vs with
      | nil => intro ρ; rfl
      | cons v vs ih => intro ρ; cases q <;> simp only [quantVal, ih] <;> rfl
    rw [this]
    rfl

theorem setMany_hit (j : D) : ∀ (vs : List Var) (ρ σ : Valn D) (i : Nat), i ∈ vs.map Var.id ∨ σ i = ρ i →
    setMany j σ vs (vs.map fun v => ρ v.id) i = ρ i
  | [], ρ, σ, i, h => by
    rcases h with h | h
    · cases h
    · exact h
  | v :: vs, ρ, σ, i, h => by
    simp only [List.map_cons, setMany, List.headD_cons, List.tail_cons]
    apply setMany_hit j vs ρ
    by_cases hi : i = v.id
    · right; rw [hi, Valn.set_self]
    · rw [Valn.set_ne _ _ hi]
      rcases h with h | h
      · simp only [List.map_cons, List.mem_cons] at h
        exact .inl (h.resolve_left hi)
      · exact .inr h

theorem setMany_congr (j : D) : ∀ (vs : List Var) (ds : List D) (ρ σ : Valn D) (i : Nat), i ∈ vs.map Var.id ∨ σ i = ρ i →
    setMany j σ vs ds i = setMany j ρ vs ds i
  | [], ds, ρ, σ, i, h => by
    rcases h with h | h
    · cases h
    · exact h
  | v :: vs, ds, ρ, σ, i, h => by
    simp only [setMany]
    apply setMany_congr j vs
    by_cases hi : i = v.id
    · right; rw [hi, Valn.set_self, Valn.set_self]
    · rw [Valn.set_ne _ _ hi, Valn.set_ne _ _ hi]
      rcases h with h | h
      · simp only [List.map_cons, List.mem_cons] at h
        exact .inl (h.resolve_left hi)
      · exact .inr h

theorem eval_cov (I : Sem D) {b : Fm PF} {bs fr : List Var}
    (h : ∀ v, OccursFree v b → v.id ∈ bs.map Var.id ∨ v.id ∈ fr.map Var.id) (ρ : Valn D) (es : List D) :
    b.eval I.M (setMany I.junk (setMany I.junk (fun _ => I.junk) fr (fr.map fun v => ρ v.id)) bs es) =
      b.eval I.M (setMany I.junk ρ bs es) := by
  apply eval_agree_occ
  intro v hv
  apply setMany_congr
  rcases h v hv with h | h
  · exact .inl h
  · exact .inr (setMany_hit _ _ _ _ _ (.inl h))

theorem junk_setTaq (I : Sem D) (n g) : (I.setTaq n g).junk = I.junk := rfl

/-- One more entry. -/
theorem real_step (I : Sem D) (pre : List TAQ) (q : TAQ) (hR : I.Real pre) (hk : TblOk (pre ++ [q])) (hc : q.Cov) :
    (I.setTaq pre.length (I.entry q)).Real (pre ++ [q]) := by
  have hfn : ∀ n ds, n ≠ pre.length → (I.setTaq pre.length (I.entry q)).M.fn (.taq n) ds = I.M.fn (.taq n) ds := by
    intro n ds hn
    show (if (.taq n : PF) = .taq pre.length then _ else _) = _
    rw [if_neg (by intro e; exact hn (PF.taq.inj e))]
  intro n q' hn
  have hok := hk n q' hn
  by_cases hl : n < pre.length
  · rw [List.getElem?_append_left hl] at hn
    have := hR n q' hn
    cases q' with
    | quant k bs fr b =>
      simp only at this ⊢
      intro ρ
      rw [hfn _ _ (by omega), this ρ]
      simp only [eval_setTaq I _ _ (Nat.le_of_lt hl) (hok : TaqLt n b)]
      rfl
    | find bs fr c l r =>
      simp only at this ⊢
      intro ρ
      rw [hfn _ _ (by omega), this ρ]
      obtain ⟨o1, o2, o3⟩ := hok
      simp only [eval_setTaq I _ _ (Nat.le_of_lt hl) o1, eval_setTaq I _ _ (Nat.le_of_lt hl) o2, eval_setTaq I _ _ (Nat.le_of_lt hl) o3]
      rfl
  · have hn' : n = pre.length := by
      have := (List.getElem?_eq_some_iff.1 hn).1
      simp at this; omega
    subst hn'
    rw [List.getElem?_append_right (Nat.le_refl _)] at hn
    simp at hn
    subst hn
    have hnew : ∀ ds, (I.setTaq pre.length (I.entry q)).M.fn (.taq pre.length) ds = I.entry q ds := by
      intro ds
      show (if (.taq pre.length : PF) = .taq pre.length then _ else _) = _
      rw [if_pos rfl]
    cases q with
    | quant k bs fr b =>
      simp only
      intro ρ
      rw [hnew]
      simp only [eval_setTaq I _ _ (Nat.le_refl _) (hok : TaqLt _ b), Sem.entry, eval_cov I hc, junk_setTaq]
      rfl
    | find bs fr c l r =>
      simp only
      intro ρ
      rw [hnew]
      obtain ⟨o1, o2, o3⟩ := hok
      simp only [eval_setTaq I _ _ (Nat.le_refl _) o1, eval_setTaq I _ _ (Nat.le_refl _) o2, eval_setTaq I _ _ (Nat.le_refl _) o3, Sem.entry,
        eval_cov I (hc.1 c (by simp)), eval_cov I (hc.1 l (by simp)), junk_setTaq]
      have : r.eval I.M (setMany I.junk (fun _ => I.junk) fr (fr.map fun v => ρ v.id)) = r.eval I.M ρ := by
        apply eval_agree_occ
        intro v hv
        exact setMany_hit _ _ _ _ _ (.inl (hc.2 v hv))
      rw [this]
      rfl

theorem real_realize : ∀ (l pre : List TAQ) (I : Sem D), I.Real pre → TblOk (pre ++ l) → (∀ q ∈ l, q.Cov) →
    (I.realize pre.length l).Real (pre ++ l)
  | [], pre, I, h, _, _ => by simpa [Sem.realize] using h
  | q :: l, pre, I, h, hk, hc => by
    have e : pre ++ q :: l = (pre ++ [q]) ++ l := by simp
    rw [e]
    have hk1 : TblOk (pre ++ [q]) := by
      intro n q' hn
      apply hk n q'
      rw [e, List.getElem?_append_left (List.getElem?_eq_some_iff.1 hn).1]
      exact hn
    have h1 := real_step I pre q h hk1 (hc q (by simp))
    have := real_realize l (pre ++ [q]) _ h1 (e ▸ hk) (fun q' h => hc q' (by simp [h]))
    simpa [Sem.realize] using this

/-- Interpretations that only differ on created functions. -/
structure SameOff (I J : Sem D) : Prop where
  fn : ∀ f ds, (∀ n, f ≠ .taq n) → J.M.fn f ds = I.M.fn f ds
  truth : J.M.truth = I.M.truth
  ofProp : J.M.ofProp = I.M.ofProp
  dom : J.M.dom = I.M.dom
  symQ : J.symQ = I.symQ
  symFind : J.symFind = I.symFind
  mac : J.mac = I.mac
  msg : J.msg = I.msg
  cnd : J.cnd = I.cnd

theorem SameOff.refl (I : Sem D) : SameOff I I := ⟨fun _ _ _ => rfl, rfl, rfl, rfl, rfl, rfl, rfl, rfl, rfl⟩

theorem SameOff.trans {I J K : Sem D} (h : SameOff I J) (k : SameOff J K) : SameOff I K :=
  ⟨fun f ds x => (k.fn f ds x).trans (h.fn f ds x), k.truth.trans h.truth, k.ofProp.trans h.ofProp, k.dom.trans h.dom,
    k.symQ.trans h.symQ, k.symFind.trans h.symFind, k.mac.trans h.mac, k.msg.trans h.msg, k.cnd.trans h.cnd⟩

theorem SameOff.realize : ∀ (l : List TAQ) (n : Nat) (I : Sem D), SameOff I (I.realize n l)
  | [], _, I => .refl I
  | q :: l, n, I => by
    refine SameOff.trans ?_ (SameOff.realize l (n + 1) _)
    refine ⟨fun f ds h => ?_, rfl, rfl, rfl, rfl, rfl, rfl, rfl, rfl⟩
    show (if f = .taq n then _ else _) = _
    rw [if_neg (h n)]

theorem evalAt_same {I J : Sem D} (h : SameOff I J) (s : Srt) (d : D) : J.evalAt s d = I.evalAt s d := by
  cases s <;> simp only [Sem.evalAt] <;> exact h.fn _ _ (fun n e => by cases e)

theorem junk_same {I J : Sem D} (h : SameOff I J) : J.junk = I.junk := by
  simp only [Sem.junk, h.ofProp]

theorem appVal_same {I J : Sem D} (h : SameOff I J) (r : Realm) (i : FInfo) (hi : ∀ n, i.sym ≠ .taq n) (vs : List D) :
    J.appVal r i vs = I.appVal r i vs := by
  have h1 := h.fn i.sym vs hi
  have h2 : ∀ d, J.M.fn .nameToMsg [d] = I.M.fn .nameToMsg [d] := fun d => h.fn _ _ (fun n e => by cases e)
  simp only [Sem.appVal, h1, h2, evalAt_same h]

theorem infix_same {I J : Sem D} (h : SameOff I J) (r : Realm) (op : Op) (vs : List D) : J.infix r op vs = I.infix r op vs := by
  have hf : ∀ f ds, (∀ n, f ≠ .taq n) → J.M.fn f ds = I.M.fn f ds := h.fn
  have hand : ∀ r l, J.conj r l = I.conj r l := by
    intro r l
    cases r
    · have : (fun a b => J.M.fn .taAnd [a, b]) = fun a b => I.M.fn .taAnd [a, b] := by
        funext a b; exact hf _ _ (fun n e => by cases e)
      simp only [Sem.conj, this, junk_same h]
    · exact hf _ _ (fun n e => by cases e)
  have hor : ∀ r l, J.disj r l = I.disj r l := by
    intro r l
    cases r
    · have : (fun a b => J.M.fn .taOr [a, b]) = fun a b => I.M.fn .taOr [a, b] := by
        funext a b; exact hf _ _ (fun n e => by cases e)
      simp only [Sem.disj, this, junk_same h]
    · exact hf _ _ (fun n e => by cases e)
  have hch : ∀ r (f g : D → D → D) l, (∀ a b, f a b = g a b) → J.chain r f l = I.chain r g l := by
    intro r f g l e
    have : f = g := by funext a b; exact e a b
    subst this
    unfold Sem.chain
    split
    · rfl
    · exact hand _ _
  have hh : ∀ r a b, J.hardEq1 r a b = I.hardEq1 r a b := by
    intro r a b
    cases r <;> simp only [Sem.hardEq1] <;> rw [hf _ _ (fun n e => by cases e)]
    rw [hf .taEq _ (fun n e => by cases e)]
  have hr : ∀ (f g : D → D → D) l, (∀ a b, f a b = g a b) → nestR J.junk f l = nestR I.junk g l := by
    intro f g l e
    have : f = g := by funext a b; exact e a b
    rw [this, junk_same h]
  cases op <;> cases r <;> simp only [Sem.infix]
  case hardEq.sym => exact hch _ _ _ _ (hh _)
  case hardEq.ev => exact hch _ _ _ _ (hh _)
  case eq.sym => exact hch _ _ _ _ (hh _)
  case eq.ev => exact hch _ _ _ _ fun a b => hf _ _ (fun n e => by cases e)
  case neq.sym => rw [hf _ _ (fun n e => by cases e), hch _ _ _ _ (hh _)]
  case neq.ev =>
    rw [hf _ _ (fun n e => by cases e), hch _ _ _ _ fun a b => hf .eq [a, b] (fun n e => by cases e)]
  case iff.sym =>
    apply hch
    intro a b
    rw [hf _ _ (fun n e => by cases e), hf .taImp [a, b] (fun n e => by cases e), hf .taImp [b, a] (fun n e => by cases e)]
  case iff.ev => exact hch _ _ _ _ fun a b => hf _ _ (fun n e => by cases e)
  case implies.sym => exact hr _ _ _ fun a b => hf _ _ (fun n e => by cases e)
  case implies.ev => exact hr _ _ _ fun a b => hf _ _ (fun n e => by cases e)
  case and.sym => exact hand _ _
  case and.ev => exact hand _ _
  case or.sym => exact hor _ _
  case or.ev => exact hor _ _

theorem qSem_same {I J : Sem D} (h : SameOff I J) (q : QKind) : ∀ (ss : List Srt) (P : List D → Prop),
    qSem J.M q ss P = qSem I.M q ss P
  | [], P => by simp only [qSem]
  | s :: ss, P => by cases q <;> simp only [qSem, h.dom, qSem_same h _ ss]

theorem funOf_noTaq {E : Env} (hE : E.NoTaq) {r f i} (h : funOf E r f = some i) : ∀ m, i.sym ≠ .taq m := by
  rw [funOf_eq] at h
  exact getFun_noTaq hE h

mutual
/-- The meaning of a text does not involve the created functions. -/
theorem den_same {I J : Sem D} (h : SameOff I J) {E : Env} (hE : E.NoTaq) : ∀ (t : Tm) (r : Realm) (e : VEnv D),
    den E J r e t = den E I r e t
  | .letin b t₁ t₂, r, e => by simp only [den, den_same h hE t₁, den_same h hE t₂]
  | .ite c a b, r, e => by
    simp only [den, den_same h hE c, den_same h hE a, den_same h hE b]
    exact h.fn _ _ (fun n e => by split at e <;> cases e)
  | .find vs c a b, r, e => by
    simp only [den, den_same h hE c, den_same h hE a, den_same h hE b, evalAt_same h, h.symFind, junk_same h]
  | .quant k vs b, r, e => by
    simp only [den, den_same h hE b, h.symQ, junk_same h, h.ofProp, h.truth, qSem_same h]
  | .cvar x, r, e => by
    simp only [den, evalAt_same h, junk_same h]
    split
    · rfl
    · split
      · rename_i i hi; exact appVal_same h _ _ (funOf_noTaq hE hi) _
      · rfl
  | .app f args, r, e => by
    simp only [den, dens_same h hE args, junk_same h]
    split
    · rename_i i hi; exact appVal_same h _ _ (funOf_noTaq hE hi) _
    · rfl
  | .infx op ts, r, e => by simp only [den, dens_same h hE ts, infix_same h]
  | .msg s args, r, e => by simp only [den, dens_same h hE args, h.msg, junk_same h]
  | .cond s args, r, e => by simp only [den, dens_same h hE args, h.cnd, junk_same h]
  | .mac m args, r, e => by simp only [den, dens_same h hE args, h.mac, junk_same h]
theorem dens_same {I J : Sem D} (h : SameOff I J) {E : Env} (hE : E.NoTaq) : ∀ (ts : List Tm) (r : Realm) (rs : List Realm)
    (e : VEnv D), dens E J r rs e ts = dens E I r rs e ts
  | [], _, _, _ => rfl
  | t :: l, r, rs, e => by simp only [dens, den_same h hE t, dens_same h hE l]
end

theorem ok_same {I J : Sem D} (h : SameOff I J) {E : Env} (hE : E.NoTaq) (hI : I.Ok E) : J.Ok E where
  mac m c hm r vs hv := by rw [h.mac, den_same h hE, junk_same h]; exact hI.mac m c hm r vs hv
  msg s c i hs hf r vs hv := by
    rw [h.msg, den_same h hE, junk_same h, h.fn .input _ (fun n e => by cases e), h.fn i.sym _ (hE s i hf)]
    exact hI.msg s c i hs hf r vs hv
  cnd s c i hs hf r vs hv := by
    rw [h.cnd, den_same h hE, junk_same h, h.fn .input _ (fun n e => by cases e), h.fn i.sym _ (hE s i hf)]
    exact hI.cnd s c i hs hf r vs hv

end

/-- **C20 (partial), without assumptions on the created functions.** Any interpretation of the declared symbols of a file
extends, without changing the meaning of any text, to one in which the accepted clean assertion has the value
of its text. The extension interprets the functions the elaborator has created for quantifiers inside messages
and for `find`; this shows that the hypothesis of `C20_meaning_partial` about them can always be met. -/
theorem C20_interpretation_partial (E : Env) (hE : E.NoTaq) (n : Nat) (t : Tm) (st' : St) (φ : Fm PF) (hc : Clean E .ev [] [] t)
    (h : parseAssert E n t st0 = .ok (φ, st')) {D : Type} (I : Sem D) (hI : I.Ok E) :
    ∃ J : Sem D, SameOff I J ∧ J.Ok E ∧ J.Real st'.tbl ∧ ∀ ρ, φ.eval J.M ρ = den E I .ev [] t := by
  have h0 : Sc [] [] ({ st0 with bvars := [] } : St).bvars :=
    ⟨fun i p h => (by simp at h), fun p h => (by cases h), fun p h => (by cases h)⟩
  have g := parse_good E n .ev (.stat .bool) t { st0 with bvars := [] } [] [] [] φ st' h0 (by simp) hc h
  have i := parse_inv E hE n _ _ _ _ _ _ h
  have hcov := g.tbl.cov (fun q hq => by cases hq)
  have hok : TblOk st'.tbl := i.ok (fun n q hq => by simp [st0] at hq)
  have hs : SameOff I (I.realize 0 st'.tbl) := .realize _ _ _
  have hr : (I.realize 0 st'.tbl).Real st'.tbl :=
    real_realize st'.tbl [] I (fun n q hq => by simp at hq) (by simpa using hok) hcov
  refine ⟨_, hs, ok_same hs hE hI, hr, fun ρ => ?_⟩
  rw [g.sem D _ (ok_same hs hE hI) hr ρ, den_same hs hE]
  rfl

/-- A quantifier inside a message creates a function. -/
example : ∃ φ st', exE.NoTaq ∧ Clean exE .ev [] [] (.infx .hardEq [.cvar "a", .find [("i", "Index")] (.app "q" [.cvar "i"]) (.cvar "a") (.cvar "a")]) ∧
    parseAssert exE 5 (.infx .hardEq [.cvar "a", .find [("i", "Index")] (.app "q" [.cvar "i"]) (.cvar "a") (.cvar "a")]) st0 =
      .ok (φ, st') ∧ st'.tbl.length = 1 := by
  refine ⟨_, _, ?_, .hardEq2 (.cons (.cvarFun (by simp) (by simp)) (.cons (.find (.cvarFun (by simp) (by simp [leak])) (fun _ => by simp [leak]) ?_ ?_) .nil)), rfl, rfl⟩
  · intro f i h m
    simp only [exE] at h
    repeat (first | cases h; done | (split at h; (cases h; simp)))
  · refine .app (i := ⟨.sym "q", .fixed [.index] .condition, false⟩) rfl rfl ?_ ?_
    · simp [RealmsOk, FSig.args, FSig.realm, realmOf, argRealm]
    · exact .cons (.cvarVar (by simp)) .nil
  · exact .cvarFun (by simp) (by simp [leak, leaks])

end Prs
end CV
