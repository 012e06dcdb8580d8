/-
Property C89: a file that mentions a symbol it does not declare is refused. The loader is the one of Load.lean, the elaborator the one
of Parser.lean; ScopeSq.lean is about the problems made of Squirrel files.
-/
import Verif.FileLoad
set_option linter.unusedSimpArgs false

namespace CV
namespace Scp
open Prs

/-! ## Specification -/

/-- SPECIFICATION. `Sub u t`: `u` is a part of the text `t`. -/
inductive Sub (u : Tm) : Tm → Prop
  | refl : Sub u u
  | let₁ {b t₁ t₂} : Sub u t₁ → Sub u (.letin b t₁ t₂)
  | let₂ {b t₁ t₂} : Sub u t₂ → Sub u (.letin b t₁ t₂)
  | ite₁ {c a b} : Sub u c → Sub u (.ite c a b)
  | ite₂ {c a b} : Sub u a → Sub u (.ite c a b)
  | ite₃ {c a b} : Sub u b → Sub u (.ite c a b)
  | find₁ {vs c a b} : Sub u c → Sub u (.find vs c a b)
  | find₂ {vs c a b} : Sub u a → Sub u (.find vs c a b)
  | find₃ {vs c a b} : Sub u b → Sub u (.find vs c a b)
  | quant {k vs b} : Sub u b → Sub u (.quant k vs b)
  | app {f args a} : a ∈ args → Sub u a → Sub u (.app f args)
  | infx {op ts a} : a ∈ ts → Sub u a → Sub u (.infx op ts)
  | msg {s args a} : a ∈ args → Sub u a → Sub u (.msg s args)
  | cond {s args a} : a ∈ args → Sub u a → Sub u (.cond s args)
  | mac {m args a} : a ∈ args → Sub u a → Sub u (.mac m args)

/-- SPECIFICATION. The bindings of the head of a text. -/
def bnds : Tm → List Bnd
  | .letin b _ _ => [b]
  | .find vs _ _ _ => vs
  | .quant _ vs _ => vs
  | _ => []

/-- SPECIFICATION. What a file knows: functions (with cells and steps), steps, macros with their number of parameters, types. -/
structure Voc where
  funs : String → Prop
  steps : String → Prop
  macs : String → Nat → Prop
  types : String → Prop

/-- SPECIFICATION. The head of a text mentions only what is known, and variables of `S`. -/
def HeadKnown (V : Voc) (S : String → Prop) : Tm → Prop
  | .cvar s => S s ∨ V.funs s
  | .app f _ => V.funs f
  | .msg s _ => V.steps s
  | .cond s _ => V.steps s
  | .mac m args => V.macs m args.length
  | t => ∀ b ∈ bnds t, V.types b.2

/-- SPECIFICATION. A text mentions only what is known, the variables `Γ`, and variables bound in it. -/
def Known (V : Voc) (Γ : List String) (t : Tm) : Prop :=
  ∀ u, Sub u t → HeadKnown V (fun x => x ∈ Γ ∨ ∃ w, Sub w t ∧ x ∈ (bnds w).map (·.1)) u

/-- SPECIFICATION. `n` arguments are not too many for the head of a text: what is beyond the parameters is not read (C21). Fewer are an error. -/
def HeadFits (fits : String → Nat → Prop) : Tm → Prop
  | .app f args => fits f args.length
  | .msg s args => fits s args.length
  | .cond s args => fits s args.length
  | .infx op ts => op = .and ∨ op = .or ∨ op = .hardEq ∧ 2 ≤ ts.length ∨ ts.length = 2
  | _ => True

def Fits (fits : String → Nat → Prop) (t : Tm) : Prop := ∀ u, Sub u t → HeadFits fits u

/-! ## Elaboration -/

theorem Sub.trans {u t v : Tm} (h : Sub u t) (k : Sub t v) : Sub u v := by
  induction k with
  | refl => exact h
  | let₁ _ ih => exact .let₁ ih
  | let₂ _ ih => exact .let₂ ih
  | ite₁ _ ih => exact .ite₁ ih
  | ite₂ _ ih => exact .ite₂ ih
  | ite₃ _ ih => exact .ite₃ ih
  | find₁ _ ih => exact .find₁ ih
  | find₂ _ ih => exact .find₂ ih
  | find₃ _ ih => exact .find₃ ih
  | quant _ ih => exact .quant ih
  | app h _ ih => exact .app h ih
  | infx h _ ih => exact .infx h ih
  | msg h _ ih => exact .msg h ih
  | cond h _ ih => exact .cond h ih
  | mac h _ ih => exact .mac h ih

/-- What the environment of the elaborator knows. -/
def _root_.CV.Prs.Env.voc (E : Env) : Voc where
  funs f := ∃ r, (getFun E r f).isSome
  steps s := (E.steps s).isSome
  macs m n := ∃ i, E.macros m = some i ∧ i.params.length = n
  types s := (E.sorts s).isSome

def atMost (n : Nat) : FSig → Prop
  | .fixed a _ => n ≤ a.length
  | .nary => True
  | .eq2 => n ≤ 2
  | .ite3 => n ≤ 3

def _root_.CV.Prs.Env.fits (E : Env) (f : String) (n : Nat) : Prop := ∀ r i, getFun E r f = some i → atMost n i.sig

/-- What is shown of a text by induction: `S` are the variables that may occur. -/
structure Good (E : Env) (S : String → Prop) (t : Tm) : Prop where
  known : ∀ u, Sub u t → HeadKnown E.voc S u

/-- What is asked of a text. -/
structure Ask (E : Env) (S : String → Prop) (t : Tm) : Prop where
  fits : Fits E.fits t
  binds : ∀ u, Sub u t → ∀ b ∈ bnds u, S b.1

theorem Ask.sub {E : Env} {S} {t v : Tm} (h : Ask E S v) (k : Sub t v) : Ask E S t :=
  ⟨fun u hu => h.fits u (hu.trans k), fun u hu => h.binds u (hu.trans k)⟩

def InS (S : String → Prop) (st : St) : Prop := ∀ p ∈ st.bvars, S p.1

/-- An elaborator that refuses what is not known. -/
def Strict (E : Env) (S : String → Prop) (p : Px → Tm → St → PRes) (t : Tm) : Prop :=
  ∀ es st x, Ask E S t → InS S st → p es t st = .ok x → Good E S t ∧ InS S x.2

theorem parseList_strict {E S} {p : Px → Tm → St → PRes} : ∀ {l : List (Px × Tm)} {st x}, (∀ q ∈ l, Strict E S p q.2) →
    (∀ q ∈ l, Ask E S q.2) → InS S st → parseList p l st = .ok x → (∀ q ∈ l, Good E S q.2) ∧ InS S x.2 ∧ x.1.length = l.length
  | [], st, x, _, _, hs, h => by cases h; exact ⟨nofun, hs, rfl⟩
  | (es, t) :: l, st, x, hp, ha, hs, h => by
    simp only [parseList, bind_ok] at h
    obtain ⟨y, hy, z, hz, h⟩ := h
    cases h
    obtain ⟨g1, g2⟩ := hp _ (List.mem_cons_self ..) es st y (ha _ (List.mem_cons_self ..)) hs hy
    obtain ⟨k1, k2, k3⟩ := parseList_strict (fun q hq => hp q (List.mem_cons_of_mem _ hq)) (fun q hq => ha q (List.mem_cons_of_mem _ hq)) g2 hz
    refine ⟨fun q hq => ?_, k2, by simp [k3]⟩
    rcases List.mem_cons.1 hq with rfl | hq
    · exact g1
    · exact k1 q hq

theorem inst_length {sig : FSig} {n : Nat} (st : Store) (h : atMost n sig) : n ≤ (sig.inst st n).1.length := by
  cases sig <;> simp_all [FSig.inst, atMost]

theorem mem_zip_right {α β : Type} : ∀ {l : List α} {m : List β}, m.length ≤ l.length → ∀ b ∈ m, ∃ a, (a, b) ∈ l.zip m
  | _, [], _, _, h => by cases h
  | [], _ :: _, hl, _, _ => by simp at hl
  | a :: l, c :: m, hl, b, h => by
    rcases List.mem_cons.1 h with rfl | h
    · exact ⟨a, List.mem_cons_self ..⟩
    · obtain ⟨a', ha⟩ := mem_zip_right (by simpa using hl) b h
      exact ⟨a', List.mem_cons_of_mem _ ha⟩

theorem parseApp_strict {E S} {p : Realm → Px → Tm → St → PRes} {r es i args st x} (hi : atMost args.length i.sig)
    (hp : ∀ a ∈ args, ∀ r, Strict E S (p r) a) (ha : ∀ a ∈ args, Ask E S a) (hs : InS S st)
    (h : parseApp p r es i args st = .ok x) : (∀ a ∈ args, Good E S a) ∧ InS S x.2 := by
  simp only [parseApp, bind_ok] at h
  obtain ⟨y, hy, h⟩ := h
  have hl := inst_length st.store hi
  split at h
  case isFalse => cases h
  simp only [bind_ok] at h
  obtain ⟨u, hu, h⟩ := h
  cases h
  obtain ⟨g1, g2, -⟩ := parseList_strict (E := E) (S := S) (fun q hq => hp q.2 (List.of_mem_zip hq).2 _) (fun q hq => ha q.2 (List.of_mem_zip hq).2) (by exact hs) hy
  refine ⟨fun a hm => ?_, g2⟩
  obtain ⟨b, hb⟩ := mem_zip_right hl a hm
  exact g1 _ hb

theorem parseVar_strict {r es v st x} {S} (hs : InS S st) (h : parseVar r es v st = .ok x) : InS S x.2 := by
  unfold parseVar at h
  split at h
  · cases h
  split at h
  · split at h
    · cases h
    · simp only [bind_ok] at h
      obtain ⟨u, _, h⟩ := h
      cases h
      exact hs
  · simp only [bind_ok] at h
    obtain ⟨u, _, h⟩ := h
    cases h
    exact hs

theorem parseApplication_strict {E S} {p : Realm → Px → Tm → St → PRes} {r es f args st x} (hi : E.fits f args.length)
    (hp : ∀ a ∈ args, ∀ r, Strict E S (p r) a) (ha : ∀ a ∈ args, Ask E S a) (hs : InS S st)
    (h : parseApplication p E r es f (some args) st = .ok x) : E.voc.funs f ∧ (∀ a ∈ args, Good E S a) ∧ InS S x.2 := by
  simp only [parseApplication, bind_ok] at h
  obtain ⟨i, hg, h⟩ := h
  have hg := ofOption_ok.1 hg
  obtain ⟨g1, g2⟩ := parseApp_strict (E := E) (hi r i hg) hp ha hs h
  exact ⟨⟨r, by rw [hg]; rfl⟩, g1, g2⟩

theorem parseConst_strict {E S} {p : Realm → Px → Tm → St → PRes} {r es f st x} (hs : InS S st)
    (h : parseApplication p E r es f none st = .ok x) : (S f ∨ E.voc.funs f) ∧ InS S x.2 := by
  simp only [parseApplication] at h
  split at h
  · rename_i b hb
    have h1 := List.find?_some hb
    have h2 := List.mem_of_find?_eq_some hb
    refine ⟨.inl ?_, parseVar_strict hs h⟩
    rw [← beq_iff_eq.1 h1]
    exact hs b h2
  · simp only [bind_ok] at h
    obtain ⟨i, hg, h⟩ := h
    have hg := ofOption_ok.1 hg
    refine ⟨.inr ⟨r, by rw [hg]; rfl⟩, ?_⟩
    simp only [parseApp, List.zip_nil_right, parseList, Out.bind] at h
    split at h
    case isFalse => cases h
    obtain ⟨u, hu, h⟩ := bind_ok.1 h
    cases h
    exact hs

theorem parseBindings_strict {E : Env} {S} : ∀ {vs : List Bnd} {st x}, (∀ b ∈ vs, S b.1) → InS S st → parseBindings E vs st = .ok x →
    (∀ b ∈ vs, (E.sorts b.2).isSome) ∧ InS S x.2
  | [], st, x, _, hs, h => by cases h; exact ⟨nofun, hs⟩
  | b :: l, st, x, hb, hs, h => by
    simp only [parseBindings, bind_ok] at h
    obtain ⟨y, hy, z, hz, h⟩ := h
    cases h
    have hk : (E.sorts b.2).isSome ∧ InS S y.2 := by
      unfold parseBinding at hy
      split at hy
      · cases hy
      · split at hy
        · cases hy
        · rename_i s hs'
          cases hy
          refine ⟨by rw [hs']; rfl, fun p hp => ?_⟩
          rcases List.mem_append.1 hp with hp | hp
          · exact hs p hp
          · rw [List.mem_singleton.1 hp]
            exact hb b (List.mem_cons_self ..)
    obtain ⟨g1, g2⟩ := parseBindings_strict (fun b h => hb b (List.mem_cons_of_mem _ h)) hk.2 hz
    refine ⟨fun c hc => ?_, g2⟩
    rcases List.mem_cons.1 hc with rfl | hc
    · exact hk.1
    · exact g1 c hc

theorem foldInfix_strict {E S} {p : Px → Tm → St → PRes} {g es} : ∀ {l : List Tm} {acc st x}, (∀ t ∈ l, Strict E S p t) →
    (∀ t ∈ l, Ask E S t) → InS S st → foldInfix p g es l acc st = .ok x → (∀ t ∈ l, Good E S t) ∧ InS S x.2
  | [], acc, st, x, _, _, hs, h => by cases h; exact ⟨nofun, hs⟩
  | t :: l, acc, st, x, hp, ha, hs, h => by
    simp only [foldInfix, bind_ok] at h
    obtain ⟨y, hy, h⟩ := h
    obtain ⟨g1, g2⟩ := hp _ (List.mem_cons_self ..) es st y (ha _ (List.mem_cons_self ..)) hs hy
    obtain ⟨k1, k2⟩ := foldInfix_strict (fun q hq => hp q (List.mem_cons_of_mem _ hq)) (fun q hq => ha q (List.mem_cons_of_mem _ hq)) g2 h
    refine ⟨fun q hq => ?_, k2⟩
    rcases List.mem_cons.1 hq with rfl | hq
    · exact g1
    · exact k1 q hq

theorem symInfix_strict {E S} {p : Px → Tm → St → PRes} {g es} {l : List Tm} {st x} (hp : ∀ t ∈ l, Strict E S p t)
    (ha : ∀ t ∈ l, Ask E S t) (hs : InS S st) (h : symInfix p g es l st = .ok x) : (∀ t ∈ l, Good E S t) ∧ InS S x.2 := by
  cases l with
  | nil => cases h
  | cons t l =>
    simp only [symInfix, bind_ok] at h
    obtain ⟨y, hy, h⟩ := h
    obtain ⟨g1, g2⟩ := hp _ (List.mem_cons_self ..) es st y (ha _ (List.mem_cons_self ..)) hs hy
    obtain ⟨k1, k2⟩ := foldInfix_strict (fun q hq => hp q (List.mem_cons_of_mem _ hq)) (fun q hq => ha q (List.mem_cons_of_mem _ hq)) g2 h
    refine ⟨fun q hq => ?_, k2⟩
    rcases List.mem_cons.1 hq with rfl | hq
    · exact g1
    · exact k1 q hq

theorem parseMacArgs_strict {E S} {p : Realm → Px → Tm → St → PRes} {r} : ∀ {l : List ((String × Srt) × Tm)} {st x},
    (∀ q ∈ l, ∀ r, Strict E S (p r) q.2) → (∀ q ∈ l, Ask E S q.2) → InS S st → parseMacArgs p r l st = .ok x →
    (∀ q ∈ l, Good E S q.2) ∧ InS S x.2
  | [], st, x, _, _, hs, h => by cases h; exact ⟨nofun, hs⟩
  | (b, t) :: l, st, x, hp, ha, hs, h => by
    simp only [parseMacArgs, bind_ok] at h
    obtain ⟨y, hy, z, hz, h⟩ := h
    cases h
    obtain ⟨g1, g2⟩ := hp _ (List.mem_cons_self ..) _ _ st y (ha _ (List.mem_cons_self ..)) hs hy
    obtain ⟨k1, k2⟩ := parseMacArgs_strict (fun q hq => hp q (List.mem_cons_of_mem _ hq)) (fun q hq => ha q (List.mem_cons_of_mem _ hq)) g2 hz
    refine ⟨fun q hq => ?_, k2⟩
    rcases List.mem_cons.1 hq with rfl | hq
    · exact g1
    · exact k1 q hq

theorem mem_pairTerms {op : Op} : ∀ {l : List Tm}, 2 ≤ l.length → ∀ a ∈ l, ∃ u ∈ pairTerms op l, Sub a u
  | a :: b :: l, h, c, hc => by
    rcases List.mem_cons.1 hc with rfl | hc
    · exact ⟨_, List.mem_cons_self .., .infx (List.mem_cons_self ..) .refl⟩
    cases l with
    | nil =>
      simp at hc
      subst hc
      exact ⟨_, List.mem_cons_self .., .infx (by simp) .refl⟩
    | cons d l =>
      obtain ⟨u, hu, k⟩ := mem_pairTerms (op := op) (l := b :: d :: l) (by simp) c hc
      exact ⟨u, List.mem_cons_of_mem _ hu, k⟩

theorem pairTerms_mem {op : Op} : ∀ {l : List Tm}, ∀ u ∈ pairTerms op l, ∃ a ∈ l, ∃ b ∈ l, u = .infx op [a, b]
  | a :: b :: l, u, h => by
    simp only [pairTerms, List.mem_cons] at h
    rcases h with rfl | h
    · exact ⟨a, List.mem_cons_self .., b, by simp, rfl⟩
    · obtain ⟨x, hx, y, hy, e⟩ := pairTerms_mem u h
      exact ⟨x, List.mem_cons_of_mem _ hx, y, List.mem_cons_of_mem _ hy, e⟩
  | [], u, h => by cases h
  | [a], u, h => by cases h

theorem infx_inv {u : Tm} {op ts} (h : Sub u (.infx op ts)) : u = .infx op ts ∨ ∃ a ∈ ts, Sub u a := by
  cases h with
  | refl => exact .inl rfl
  | infx h k => exact .inr ⟨_, h, k⟩

theorem Good.infx {E S op ts} (h : ∀ a ∈ ts, Good E S a) : Good E S (.infx op ts) :=
  ⟨fun u hu => by
    rcases infx_inv hu with rfl | ⟨a, ha, k⟩
    · intro b hb; cases hb
    · exact (h a ha).known u k⟩

theorem Ask.infx {E S op ts} (h : ∀ a ∈ ts, Ask E S a) (hf : HeadFits E.fits (.infx op ts)) : Ask E S (.infx op ts) :=
  ⟨fun u hu => by
    rcases infx_inv hu with rfl | ⟨a, ha, k⟩
    · exact hf
    · exact (h a ha).fits u k, fun u hu => by
    rcases infx_inv hu with rfl | ⟨a, ha, k⟩
    · intro b hb; cases hb
    · exact (h a ha).binds u k⟩

theorem Good.sub {E S} {t v : Tm} (h : Good E S v) (k : Sub t v) : Good E S t := ⟨fun u hu => h.known u (hu.trans k)⟩

/-- Operators on a list written as a conjunction of pairs. -/
theorem pairs_strict {E S} {p : Px → Tm → St → PRes} {op : Op} {ts : List Tm} (hl : 2 ≤ ts.length) (ha : ∀ a ∈ ts, Ask E S a)
    (hp : Strict E S p (.infx .and (pairTerms op ts))) {es st x} (hs : InS S st)
    (h : p es (.infx .and (pairTerms op ts)) st = .ok x) : (∀ a ∈ ts, Good E S a) ∧ InS S x.2 := by
  have hask : Ask E S (.infx .and (pairTerms op ts)) := by
    refine .infx (fun u hu => ?_) (.inl rfl)
    obtain ⟨a, h1, b, h2, rfl⟩ := pairTerms_mem u hu
    refine .infx (fun c hc => ?_) (.inr (.inr (.inr rfl)))
    simp only [List.mem_cons, List.not_mem_nil, or_false] at hc
    rcases hc with rfl | rfl
    · exact ha _ h1
    · exact ha _ h2
  obtain ⟨g1, g2⟩ := hp es st x hask hs h
  refine ⟨fun a hm => ?_, g2⟩
  obtain ⟨u, hu, k⟩ := mem_pairTerms (op := op) hl a hm
  exact g1.sub (k.trans (.infx hu .refl))

theorem InS.take {S st} (h : InS S st) (n : Nat) : InS S { st with bvars := st.bvars.take n } :=
  fun p hp => h p (List.mem_of_mem_take hp)

theorem stepMac_strict {E S} {p : Realm → Px → Tm → St → PRes} {r es s args st x} {body : StepInfo → Tm} (hi : E.fits s args.length)
    (hp : ∀ a ∈ args, ∀ r, Strict E S (p r) a) (ha : ∀ a ∈ args, Ask E S a) (hs : InS S st)
    (h : parseStepMac p E r es s args body st = .ok x) : E.voc.steps s ∧ (∀ a ∈ args, Good E S a) ∧ InS S x.2 := by
  simp only [parseStepMac, bind_ok] at h
  obtain ⟨y, hy, h⟩ := h
  obtain ⟨-, g1, g2⟩ := parseApplication_strict hi hp ha hs hy
  split at h
  · cases h
  split at h
  · rename_i c i hc _
    split at h
    case isFalse => cases h
    simp only [bind_ok] at h
    obtain ⟨z, hz, h⟩ := h
    cases h
    exact ⟨by show (E.steps s).isSome; rw [hc]; rfl, g1, g2⟩
  · cases h

theorem parse_strict (E : Env) (S : String → Prop) : ∀ (n : Nat) (r : Realm) (t : Tm), Strict E S (parse E n r) t
  | 0, r, t => fun es st x _ _ h => by cases h
  | n + 1, r, t => by
    have ih := parse_strict E S n
    intro es st x ha hs h
    cases t with
    | letin b t₁ t₂ =>
      simp only [parse, parseLet, bind_ok] at h
      obtain ⟨v, hv, y, hy, z, hz, h⟩ := h
      cases h
      have hb : parseBindings E [b] st = .ok ([v.1], v.2) := by simp only [parseBindings, hv, Out.bind]
      obtain ⟨g1, g2⟩ := parseBindings_strict (S := S) (fun c hc => ha.binds _ .refl c hc) hs hb
      obtain ⟨k1, k2⟩ := ih _ _ _ _ _ (ha.sub (.let₁ .refl)) g2 hy
      obtain ⟨k3, k4⟩ := ih _ _ _ _ _ (ha.sub (.let₂ .refl)) k2 hz
      refine ⟨⟨fun u hu => ?_⟩, k4⟩
      cases hu with
      | refl => exact fun c hc => g1 c hc
      | let₁ k => exact k1.known u k
      | let₂ k => exact k3.known u k
    | ite c a b =>
      simp only [parse, parseIte, bind_ok] at h
      obtain ⟨v, hv, y, hy, z, hz, h⟩ := h
      cases h
      obtain ⟨k1, k2⟩ := ih _ _ _ _ _ (ha.sub (.ite₁ .refl)) hs hv
      obtain ⟨k3, k4⟩ := ih _ _ _ _ _ (ha.sub (.ite₂ .refl)) k2 hy
      obtain ⟨k5, k6⟩ := ih _ _ _ _ _ (ha.sub (.ite₃ .refl)) k4 hz
      refine ⟨⟨fun u hu => ?_⟩, k6⟩
      cases hu with
      | refl => exact fun c hc => by cases hc
      | ite₁ k => exact k1.known u k
      | ite₂ k => exact k3.known u k
      | ite₃ k => exact k5.known u k
    | find vs c a b =>
      simp only [parse, parseFind, bind_ok] at h
      obtain ⟨s, _, z, hz, v, hv, x', hx, y, hy, h⟩ := h
      cases h
      obtain ⟨k1, k2⟩ := ih _ _ _ _ _ (ha.sub (.find₃ .refl)) (by exact hs) hz
      obtain ⟨g1, g2⟩ := parseBindings_strict (S := S) (fun c hc => ha.binds _ .refl c hc) k2 hv
      obtain ⟨k3, k4⟩ := ih _ _ _ _ _ (ha.sub (.find₁ .refl)) g2 hx
      obtain ⟨k5, k6⟩ := ih _ _ _ _ _ (ha.sub (.find₂ .refl)) k4 hy
      refine ⟨⟨fun u hu => ?_⟩, k6.take _⟩
      cases hu with
      | refl => exact fun c hc => g1 c hc
      | find₁ k => exact k3.known u k
      | find₂ k => exact k5.known u k
      | find₃ k => exact k1.known u k
    | quant k vs b =>
      simp only [parse, parseQuant, bind_ok] at h
      obtain ⟨s, _, v, hv, y, hy, h⟩ := h
      obtain ⟨g1, g2⟩ := parseBindings_strict (S := S) (fun c hc => ha.binds _ .refl c hc) (by exact hs) hv
      obtain ⟨k3, k4⟩ := ih _ _ _ _ _ (ha.sub (.quant .refl)) g2 hy
      refine ⟨⟨fun u hu => ?_⟩, ?_⟩
      · cases hu with
        | refl => exact fun c hc => g1 c hc
        | quant k => exact k3.known u k
      · cases r <;> cases h <;> exact k4.take _
    | cvar s =>
      obtain ⟨g1, g2⟩ := parseConst_strict hs (show parseApplication (parse E n) E r es s none st = .ok x from h)
      refine ⟨⟨fun u hu => ?_⟩, g2⟩
      cases hu
      exact g1
    | app f args =>
      obtain ⟨g1, g2, g3⟩ := parseApplication_strict (S := S) (ha.fits _ .refl) (fun a _ r => ih r a) (fun a h => ha.sub (.app h .refl)) hs
        (show parseApplication (parse E n) E r es f (some args) st = .ok x from h)
      refine ⟨⟨fun u hu => ?_⟩, g3⟩
      cases hu with
      | refl => exact g1
      | app h k => exact (g2 _ h).known u k
    | infx op ts =>
      have hf := ha.fits _ .refl
      have hsub : ∀ a ∈ ts, Ask E S a := fun a h => ha.sub (.infx h .refl)
      suffices H : (∀ a ∈ ts, Good E S a) ∧ InS S x.2 from ⟨.infx H.1, H.2⟩
      have h : parseInfix (parse E n) E r es op ts st = .ok x := h
      have app : ∀ {i : FInfo}, atMost ts.length i.sig → parseApp (parse E n) r es i ts st = .ok x → (∀ a ∈ ts, Good E S a) ∧ InS S x.2 :=
        fun hi h => parseApp_strict hi (fun a _ r => ih r a) hsub hs h
      have pairs : ∀ {o : Op}, 2 ≤ ts.length → parse E n r es (.infx .and (pairTerms o ts)) st = .ok x → (∀ a ∈ ts, Good E S a) ∧ InS S x.2 :=
        fun hl h => pairs_strict hl hsub (ih _ _) hs h
      have two : ∀ {P : Prop}, op ≠ .and → op ≠ .or → op ≠ .hardEq → (ts.length = 2 → P) → P := by
        intro P h1 h2 h3 k
        rcases hf with e | e | ⟨e, -⟩ | e
        · exact absurd e h1
        · exact absurd e h2
        · exact absurd e h3
        · exact k e
      cases op with
      | hardEq =>
        have hl : 2 ≤ ts.length := by
          rcases hf with e | e | ⟨-, e⟩ | e
          · cases e
          · cases e
          · exact e
          · omega
        simp only [parseInfix] at h
        split at h
        case isTrue e => exact app (by simp [taEqInfo, atMost, e]) h
        case isFalse => exact pairs hl h
      | eq =>
        refine two (by decide) (by decide) (by decide) fun e => ?_
        cases r with
        | ev => exact app (by simp [eqInfo, atMost, e]) h
        | sym =>
          obtain ⟨g1, g2⟩ := ih .sym (.infx .hardEq ts) es st x (.infx hsub (.inr (.inr (.inr e)))) hs h
          exact ⟨fun a h => g1.sub (.infx h .refl), g2⟩
      | neq =>
        refine two (by decide) (by decide) (by decide) fun e => ?_
        have hn : ∀ a ∈ [Tm.infx .eq ts], Ask E S a := fun a h => by
          rw [List.mem_singleton.1 h]
          exact .infx hsub (.inr (.inr (.inr e)))
        obtain ⟨-, g1, g2⟩ := parseApplication_strict (E := E) (S := S) (f := "not") (args := [.infx .eq ts])
          (fun r i h => by
            simp only [getFun, show ¬ ("not" = "true" ∨ "not" = "True") by decide, show ¬ ("not" = "false" ∨ "not" = "False") by decide, if_false, if_true,
              Option.some.injEq] at h
            subst h
            cases r <;> simp [atMost]) (fun a _ r => ih r a) hn hs h
        exact ⟨fun a h => (g1 _ (List.mem_singleton.2 rfl)).sub (.infx h .refl), g2⟩
      | iff =>
        refine two (by decide) (by decide) (by decide) fun e => ?_
        cases r with
        | ev => exact app (by simp [eqInfo, atMost, e]) h
        | sym => exact pairs (by omega) h
      | implies =>
        refine two (by decide) (by decide) (by decide) fun e => ?_
        exact app (by cases r <;> simp [impInfo, atMost, e]) h
      | and =>
        cases r with
        | ev => exact app (i := ⟨_, .nary, false⟩) trivial h
        | sym => exact symInfix_strict (fun t _ => ih _ t) hsub hs h
      | or =>
        cases r with
        | ev => exact app (i := ⟨_, .nary, false⟩) trivial h
        | sym => exact symInfix_strict (fun t _ => ih _ t) hsub hs h
    | msg s args =>
      have step := stepMac_strict (body := (·.message)) (ha.fits _ .refl) (fun a _ r => ih r a) (fun a h => ha.sub (.msg h .refl)) hs h
      refine ⟨⟨fun u hu => ?_⟩, step.2.2⟩
      cases hu with
      | refl => exact step.1
      | msg h k => exact (step.2.1 _ h).known u k
    | cond s args =>
      have step := stepMac_strict (body := (·.condition)) (ha.fits _ .refl) (fun a _ r => ih r a) (fun a h => ha.sub (.cond h .refl)) hs h
      refine ⟨⟨fun u hu => ?_⟩, step.2.2⟩
      cases hu with
      | refl => exact step.1
      | cond h k => exact (step.2.1 _ h).known u k
    | mac m args =>
      have h : parseMac (parse E n) E r es m args st = .ok x := h
      unfold parseMac at h
      split at h
      · cases h
      rename_i mi hm
      split at h
      case isFalse => cases h
      rename_i hl
      simp only [bind_ok] at h
      obtain ⟨y, hy, z, hz, h⟩ := h
      cases h
      obtain ⟨g1, g2⟩ := parseMacArgs_strict (E := E) (S := S) (fun q hq r => ih r q.2) (fun q hq => ha.sub (.mac (List.of_mem_zip hq).2 .refl)) hs hy
      refine ⟨⟨fun u hu => ?_⟩, g2⟩
      cases hu with
      | refl => exact ⟨mi, hm, hl⟩
      | mac h k =>
        obtain ⟨b, hb⟩ := mem_zip_right (Nat.le_of_eq hl.symm) _ h
        exact (g1 _ hb).known u k

/-! ## Bound variables -/

/-- Elaboration leaves the variables that were there, in their places. -/
def Grows (p : Px → Tm → St → PRes) : Prop := ∀ es t st x, p es t st = .ok x → st.bvars <+: x.2.bvars

theorem parseList_grows {p : Px → Tm → St → PRes} (hp : Grows p) : ∀ {l : List (Px × Tm)} {st x}, parseList p l st = .ok x → st.bvars <+: x.2.bvars
  | [], st, x, h => by cases h; exact List.prefix_refl _
  | (es, t) :: l, st, x, h => by
    simp only [parseList, bind_ok] at h
    obtain ⟨y, hy, z, hz, h⟩ := h
    cases h
    have g := parseList_grows hp hz
    exact (hp _ _ _ _ hy).trans g

theorem parseApp_grows {p : Realm → Px → Tm → St → PRes} (hp : ∀ r, Grows (p r)) {r es i args st x} (h : parseApp p r es i args st = .ok x) :
    st.bvars <+: x.2.bvars := by
  simp only [parseApp, bind_ok] at h
  obtain ⟨y, hy, h⟩ := h
  split at h
  case isFalse => cases h
  simp only [bind_ok] at h
  obtain ⟨u, hu, h⟩ := h
  cases h
  have g := parseList_grows (hp _) hy
  exact g

theorem parseVar_grows {r es v st x} (h : parseVar r es v st = .ok x) : st.bvars <+: x.2.bvars := by
  unfold parseVar at h
  split at h
  · cases h
  split at h
  · split at h
    · cases h
    · simp only [bind_ok] at h
      obtain ⟨u, _, h⟩ := h
      cases h
      exact List.prefix_refl _
  · simp only [bind_ok] at h
    obtain ⟨u, _, h⟩ := h
    cases h
    exact List.prefix_refl _

theorem parseApplication_grows {p : Realm → Px → Tm → St → PRes} (hp : ∀ r, Grows (p r)) {E r es f args st x}
    (h : parseApplication p E r es f args st = .ok x) : st.bvars <+: x.2.bvars := by
  unfold parseApplication at h
  split at h
  · split at h
    · exact parseVar_grows h
    · obtain ⟨i, _, h⟩ := bind_ok.1 h
      exact parseApp_grows hp h
  · obtain ⟨i, _, h⟩ := bind_ok.1 h
    exact parseApp_grows hp h

theorem parseBindings_grows {E : Env} : ∀ {vs : List Bnd} {st x}, parseBindings E vs st = .ok x → st.bvars <+: x.2.bvars
  | [], st, x, h => by cases h; exact List.prefix_refl _
  | b :: l, st, x, h => by
    simp only [parseBindings, bind_ok] at h
    obtain ⟨y, hy, z, hz, h⟩ := h
    cases h
    have g := parseBindings_grows hz
    refine List.IsPrefix.trans ?_ g
    unfold parseBinding at hy
    split at hy
    · cases hy
    · split at hy
      · cases hy
      · cases hy
        exact List.prefix_append _ _

theorem foldInfix_grows {p : Px → Tm → St → PRes} (hp : Grows p) {g es} : ∀ {l : List Tm} {acc st x}, foldInfix p g es l acc st = .ok x →
    st.bvars <+: x.2.bvars
  | [], acc, st, x, h => by cases h; exact List.prefix_refl _
  | t :: l, acc, st, x, h => by
    obtain ⟨y, hy, h⟩ := bind_ok.1 h
    exact (hp _ _ _ _ hy).trans (foldInfix_grows hp h)

theorem parseMacArgs_grows {p : Realm → Px → Tm → St → PRes} (hp : ∀ r, Grows (p r)) {r} : ∀ {l : List ((String × Srt) × Tm)} {st x},
    parseMacArgs p r l st = .ok x → st.bvars <+: x.2.bvars
  | [], st, x, h => by cases h; exact List.prefix_refl _
  | (b, t) :: l, st, x, h => by
    simp only [parseMacArgs, bind_ok] at h
    obtain ⟨y, hy, z, hz, h⟩ := h
    cases h
    have g := parseMacArgs_grows hp hz
    exact (hp _ _ _ _ _ hy).trans g

theorem prefix_take {α : Type} {a b : List α} (h : a <+: b) {n : Nat} (hn : a.length ≤ n) : a <+: b.take n := by
  obtain ⟨c, rfl⟩ := h
  rw [List.take_append, List.take_of_length_le hn]
  exact List.prefix_append _ _

theorem stepMac_grows {p : Realm → Px → Tm → St → PRes} (hp : ∀ r, Grows (p r)) {E r es s args st x} {body : StepInfo → Tm}
    (h : parseStepMac p E r es s args body st = .ok x) : st.bvars <+: x.2.bvars := by
  simp only [parseStepMac, bind_ok] at h
  obtain ⟨y, hy, h⟩ := h
  have g := parseApplication_grows hp hy
  split at h
  · cases h
  split at h
  · split at h
    case isFalse => cases h
    simp only [bind_ok] at h
    obtain ⟨z, hz, h⟩ := h
    cases h
    exact g
  · cases h

theorem parse_grows (E : Env) : ∀ (n : Nat) (r : Realm), Grows (parse E n r)
  | 0, r => fun es t st x h => by cases h
  | n + 1, r => by
    have ih := parse_grows E n
    intro es t st x h
    cases t with
    | letin b t₁ t₂ =>
      simp only [parse, parseLet, bind_ok] at h
      obtain ⟨v, hv, y, hy, z, hz, h⟩ := h
      cases h
      have hb : parseBindings E [b] st = .ok ([v.1], v.2) := by simp only [parseBindings, hv, Out.bind]
      have g := ih _ _ _ _ _ hz
      exact (parseBindings_grows hb).trans ((ih _ _ _ _ _ hy).trans g)
    | ite c a b =>
      simp only [parse, parseIte, bind_ok] at h
      obtain ⟨v, hv, y, hy, z, hz, h⟩ := h
      cases h
      have g := ih _ _ _ _ _ hz
      exact (ih _ _ _ _ _ hv).trans ((ih _ _ _ _ _ hy).trans g)
    | find vs c a b =>
      simp only [parse, parseFind, bind_ok] at h
      obtain ⟨s, _, z, hz, v, hv, x', hx, y, hy, h⟩ := h
      cases h
      have g1 := ih _ _ _ _ _ hz
      change st.bvars <+: z.2.bvars at g1
      have g2 := (ih _ _ _ _ _ hx).trans (ih _ _ _ _ _ hy)
      exact prefix_take (g1.trans ((parseBindings_grows hv).trans g2)) g1.length_le
    | quant k vs b =>
      simp only [parse, parseQuant, bind_ok] at h
      obtain ⟨s, _, v, hv, y, hy, h⟩ := h
      have g1 := parseBindings_grows hv
      change st.bvars <+: v.2.bvars at g1
      have g2 := g1.trans (ih _ _ _ _ _ hy)
      cases r <;> cases h <;> exact prefix_take g2 (Nat.le_refl _)
    | cvar s => exact parseApplication_grows ih (show parseApplication (parse E n) E r es s none st = .ok x from h)
    | app f args => exact parseApplication_grows ih (show parseApplication (parse E n) E r es f (some args) st = .ok x from h)
    | infx op ts =>
      have h : parseInfix (parse E n) E r es op ts st = .ok x := h
      have sym : ∀ {g}, symInfix (parse E n .sym) g es ts st = .ok x → st.bvars <+: x.2.bvars := by
        intro g h
        cases ts with
        | nil => cases h
        | cons t l =>
          obtain ⟨y, hy, h⟩ := bind_ok.1 h
          exact (ih _ _ _ _ _ hy).trans (foldInfix_grows (ih _) h)
      unfold parseInfix at h
      cases op with
      | hardEq =>
        simp only at h
        split at h
        · exact parseApp_grows ih h
        · exact ih _ _ _ _ _ h
      | eq =>
        cases r with
        | ev => exact parseApp_grows ih h
        | sym => exact ih _ _ _ _ _ h
      | neq => exact parseApplication_grows ih h
      | iff =>
        cases r with
        | ev => exact parseApp_grows ih h
        | sym => exact ih _ _ _ _ _ h
      | implies => exact parseApp_grows ih h
      | and =>
        cases r with
        | ev => exact parseApp_grows ih h
        | sym => exact sym h
      | or =>
        cases r with
        | ev => exact parseApp_grows ih h
        | sym => exact sym h
    | msg s args => exact stepMac_grows ih (body := (·.message)) h
    | cond s args => exact stepMac_grows ih (body := (·.condition)) h
    | mac m args =>
      have h : parseMac (parse E n) E r es m args st = .ok x := h
      unfold parseMac at h
      split at h
      · cases h
      split at h
      case isFalse => cases h
      simp only [bind_ok] at h
      obtain ⟨y, hy, z, hz, h⟩ := h
      cases h
      exact parseMacArgs_grows ih hy

/-! ## Texts -/

theorem known_of_parse {E : Env} {n r es t st x} {Γ : List String} (hf : Fits E.fits t) (hb : ∀ p ∈ st.bvars, p.1 ∈ Γ)
    (h : parse E n r es t st = .ok x) : Known E.voc Γ t :=
  (parse_strict E (fun x => x ∈ Γ ∨ ∃ w, Sub w t ∧ x ∈ (bnds w).map Prod.fst) n r t es st x
    ⟨hf, fun u hu b hb => .inr ⟨u, hu, List.mem_map.2 ⟨b, hb, rfl⟩⟩⟩ (fun p hp => .inl (hb p hp)) h).1.known

/-- More is known. -/
structure Voc.Le (V W : Voc) : Prop where
  funs : ∀ f, V.funs f → W.funs f
  steps : ∀ s, V.steps s → W.steps s
  macs : ∀ m n, V.macs m n → W.macs m n
  types : ∀ s, V.types s → W.types s

theorem HeadKnown.mono {V W : Voc} (h : V.Le W) {S t} (k : HeadKnown V S t) : HeadKnown W S t := by
  cases t with
  | cvar s => exact k.imp id (h.funs _)
  | app f args => exact h.funs _ k
  | msg s args => exact h.steps _ k
  | cond s args => exact h.steps _ k
  | mac m args => exact h.macs _ _ k
  | letin b t₁ t₂ => exact fun c hc => h.types _ (k c hc)
  | ite c a b => exact fun c hc => h.types _ (k c hc)
  | find vs c a b => exact fun c hc => h.types _ (k c hc)
  | quant q vs b => exact fun c hc => h.types _ (k c hc)
  | infx op ts => exact fun c hc => h.types _ (k c hc)

theorem HeadFits.mono {P Q : String → Nat → Prop} (h : ∀ f n, P f n → Q f n) {t} (k : HeadFits P t) : HeadFits Q t := by
  cases t <;> first | exact h _ _ k | exact k

/-! ## Files -/

/-- SPECIFICATION. What a file knows: what it declares, the step `init`, and what is built in. -/
def vocOf (l : List Decl) : Voc where
  funs f := f ∈ objNames l ∨ f = "init" ∨ f ∈ builtinFunctions.map (·.1) ∨ f ∈ ["true", "True", "false", "False", "not"]
  steps s := s ∈ (stepDecls l).map (·.name) ∨ s = "init"
  macs m n := ∃ ps b, Decl.mac m ps b ∈ l ∧ ps.length = n
  types s := s ∈ typeNames l ∨ s ∈ builtinSorts.map (·.1)

/-- SPECIFICATION. `n` arguments are not too many for `f`. -/
structure FitsOf (l : List Decl) (f : String) (n : Nat) : Prop where
  func : ∀ a o, Decl.func f a o ∈ l → n ≤ a.length
  cell : ∀ a s, Decl.cell f a s ∈ l → n ≤ a.length + 1
  step : ∀ d, Decl.step d ∈ l → d.name = f → n ≤ d.params.length
  init : f = "init" → n = 0
  builtin : ∀ i, (f, Cache.func i) ∈ builtinFunctions → atMost n i.sig
  const : f ∈ ["true", "True", "false", "False"] → n = 0
  not : f = "not" → n ≤ 1

/-- SPECIFICATION. The texts of a file that are read, with the variables in scope: those of assertions, queries, lemmas (unless they are
ignored), orders and steps. The bodies of macros are read where they are used, and the arguments of an assigned cell beyond its
parameters never. -/
inductive TextOf (ig : Bool) (l : List Decl) : List String → Tm → Prop
  | assertion {t} : Decl.assertion t ∈ l → TextOf ig l [] t
  | query {t} : Decl.query t ∈ l → TextOf ig l [] t
  | lem {t} : ig = false → Decl.lem t ∈ l → TextOf ig l [] t
  | fst {o} : Decl.order o ∈ l → TextOf ig l (o.vars.map (·.1)) o.t1
  | snd {o} : Decl.order o ∈ l → TextOf ig l (o.vars.map (·.1)) o.t2
  | guard {o g} : Decl.order o ∈ l → o.guard = some g → TextOf ig l (o.vars.map (·.1)) g
  | message {d} : Decl.step d ∈ l → TextOf ig l (d.params.map (·.1) ++ ["in"]) d.message
  | condition {d} : Decl.step d ∈ l → TextOf ig l (d.params.map (·.1) ++ ["in"]) d.condition
  | content {d a} : Decl.step d ∈ l → a ∈ d.assigns → TextOf ig l (d.params.map (·.1) ++ ["in"] ++ (a.fresh.getD []).map (·.1)) a.term
  | cellArg {d a as s t} : Decl.step d ∈ l → a ∈ d.assigns → Decl.cell a.cell as s ∈ l → t ∈ a.args.take as.length →
      TextOf ig l (d.params.map (·.1) ++ ["in"] ++ (a.fresh.getD []).map (·.1)) t

theorem mem_funs {l : List Decl} {p : String × Cache} (sh : Bool) (h : p ∈ (fileEnv (env0 sh) l).functions) : (vocOf l).funs p.1 := by
  rcases mem_fileEnv h with h | ⟨d, hd, e⟩ | rfl
  · exact .inr (.inr (.inl (List.mem_map.2 ⟨p, h, rfl⟩)))
  · left
    rw [objNames, List.mem_filterMap]
    cases d <;> simp only [mkCache, Option.some.injEq, reduceCtorEq] at e <;> subst e <;> exact ⟨_, hd, rfl⟩
  · exact .inr (.inl rfl)

theorem getFun_cases {E : Env} {r f i} (h : getFun E r f = some i) :
    f ∈ ["true", "True", "false", "False"] ∧ (∃ o, i.sig = .fixed [] o) ∨ f = "not" ∧ (∃ a o, i.sig = .fixed [a] o) ∨ E.functions f = some i := by
  unfold getFun at h
  split at h
  · rename_i e
    left
    refine ⟨by simp only [List.mem_cons]; tauto, ?_⟩
    cases r <;> cases h <;> exact ⟨_, rfl⟩
  split at h
  · rename_i e
    left
    refine ⟨by simp only [List.mem_cons]; tauto, ?_⟩
    cases r <;> cases h <;> exact ⟨_, rfl⟩
  split at h
  · rename_i e
    right; left
    refine ⟨e, ?_⟩
    cases r <;> cases h <;> exact ⟨_, _, rfl⟩
  · exact .inr (.inr h)

theorem lookup_fileEnv {l : List Decl} {f : String} {i : FInfo} {sh : Bool} (h : (fileEnv (env0 sh) l).toEnv.functions f = some i) :
    ∃ c, (f, c) ∈ (fileEnv (env0 sh) l).functions ∧ i = c.info f := by
  simp only [DEnv.toEnv, Option.map_eq_some_iff] at h
  obtain ⟨c, hc, rfl⟩ := h
  exact ⟨c, lookup_map_mem hc, rfl⟩

theorem voc_le (sh : Bool) (l : List Decl) : ((fileEnv (env0 sh) l).toEnv.voc).Le (vocOf l) where
  funs f h := by
    obtain ⟨r, h⟩ := h
    obtain ⟨i, hi⟩ := Option.isSome_iff_exists.1 h
    rcases getFun_cases hi with ⟨h, -⟩ | ⟨rfl, -⟩ | h
    · refine .inr (.inr (.inr ?_))
      simp only [List.mem_cons] at h ⊢
      tauto
    · exact .inr (.inr (.inr (by simp)))
    · obtain ⟨c, hc, -⟩ := lookup_fileEnv h
      exact mem_funs sh hc
  steps s h := by
    obtain ⟨i, hi⟩ := Option.isSome_iff_exists.1 h
    simp only [DEnv.toEnv, Option.bind_eq_some_iff] at hi
    obtain ⟨c, hc, hi⟩ := hi
    rcases mem_fileEnv (lookup_map_mem hc) with h | ⟨d, hd, e⟩ | e
    · obtain ⟨j, e, -⟩ := env0_base sh _ h
      simp only at e
      subst e
      cases hi
    · cases d <;> simp only [mkCache, Option.some.injEq, reduceCtorEq, Prod.mk.injEq] at e
      · obtain ⟨rfl, rfl⟩ := e; cases hi
      · obtain ⟨rfl, rfl⟩ := e; cases hi
      · obtain ⟨rfl, rfl⟩ := e
        refine .inl (List.mem_map.2 ⟨_, ?_, rfl⟩)
        rw [stepDecls, List.mem_filterMap]
        exact ⟨_, hd, rfl⟩
    · cases e
      exact .inr rfl
  macs m n h := by
    obtain ⟨i, hi, rfl⟩ := h
    have h := lookup_map_mem (show (fileEnv (env0 sh) l).macros.lookup m = some i from hi)
    have e : (fileEnv (env0 sh) l).macros = l.filterMap (mkMac (withTypes (env0 sh) (typeNames l))) := by
      simp only [fileEnv, addDecls, (withTypes_rest _ _).2.1]
      rfl
    rw [e, List.mem_filterMap] at h
    obtain ⟨d, hd, h⟩ := h
    cases d <;> simp only [mkMac, Option.some.injEq, reduceCtorEq, Prod.mk.injEq] at h
    obtain ⟨rfl, rfl⟩ := h
    exact ⟨_, _, hd, by simp⟩
  types s h := by
    obtain ⟨i, hi⟩ := Option.isSome_iff_exists.1 h
    have h := lookup_map_mem (show (fileEnv (env0 sh) l).sorts.lookup s = some i from hi)
    have h : s ∈ (fileEnv (env0 sh) l).sorts.map (·.1) := List.mem_map.2 ⟨_, h, rfl⟩
    rw [fileEnv_sorts, withTypes_names, List.mem_append] at h
    exact h.symm

theorem fits_le (sh : Bool) (l : List Decl) {f : String} {n : Nat} (h : FitsOf l f n) : (fileEnv (env0 sh) l).toEnv.fits f n := by
  intro r i hi
  rcases getFun_cases hi with ⟨hf, o, e⟩ | ⟨rfl, a, o, e⟩ | hf
  · rw [e, h.const hf]; exact Nat.zero_le _
  · rw [e]; exact h.not rfl
  · obtain ⟨c, hc, rfl⟩ := lookup_fileEnv hf
    rcases mem_fileEnv hc with hb | ⟨d, hd, e⟩ | e
    · obtain ⟨j, e, -⟩ := env0_base sh _ hb
      simp only at e
      subst e
      exact h.builtin j hb
    · cases d <;> simp only [mkCache, Option.some.injEq, reduceCtorEq, Prod.mk.injEq] at e
      · obtain ⟨rfl, rfl⟩ := e
        simpa only [Cache.info, atMost, List.length_map] using h.func _ _ hd
      · obtain ⟨rfl, rfl⟩ := e
        simpa only [Cache.info, atMost, List.length_append, List.length_map, List.length_cons, List.length_nil] using h.cell _ _ hd
      · obtain ⟨rfl, rfl⟩ := e
        simpa only [Cache.info, atMost, List.length_map] using h.step _ hd rfl
    · cases e
      rw [h.init rfl]
      exact Nat.zero_le _

theorem mem_step {l : List Decl} {d : StepDecl} (sh : Bool) (h : Decl.step d ∈ l) :
    (d.name, Cache.step (d.params.map fun b => (b.1, (fileEnv (env0 sh) l).sortD b.2)) d) ∈ (fileEnv (env0 sh) l).functions := by
  simp only [fileEnv, addDecls, List.mem_append, List.mem_filterMap]
  exact .inl (.inr ⟨_, h, rfl⟩)

theorem parseAsserts_mem {E : Env} {fuel} : ∀ {l st x}, parseAsserts E fuel l st = .ok x → ∀ t ∈ l, ∃ st' y, parseAssert E fuel t st' = .ok y
  | [], _, _, _, t, h => by cases h
  | t :: l, st, x, h, u, hu => by
    simp only [parseAsserts, bind_ok] at h
    obtain ⟨y, hy, z, hz, h⟩ := h
    rcases List.mem_cons.1 hu with rfl | hu
    · exact ⟨_, _, hy⟩
    · exact parseAsserts_mem hz u hu

theorem parseOrders_mem {D : DEnv} {fuel} : ∀ {l st x}, parseOrders D fuel l st = .ok x → ∀ o ∈ l, ∃ st' y, parseOrderDecl D fuel o st' = .ok y
  | [], _, _, _, t, h => by cases h
  | t :: l, st, x, h, u, hu => by
    simp only [parseOrders, bind_ok] at h
    obtain ⟨y, hy, z, hz, h⟩ := h
    rcases List.mem_cons.1 hu with rfl | hu
    · exact ⟨_, _, hy⟩
    · exact parseOrders_mem hz u hu

theorem parseSteps_mem {D : DEnv} {fuel} : ∀ {l st x}, parseSteps D fuel l st = .ok x → ∀ n ps d, (n, Cache.step ps d) ∈ l →
    ∃ st' y, parseStep D fuel n ps d st' = .ok y
  | [], _, _, _, _, _, _, h => by cases h
  | (n, .step ps d) :: l, st, x, h, m, qs, e, hu => by
    simp only [parseSteps, bind_ok] at h
    obtain ⟨y, hy, z, hz, h⟩ := h
    rcases List.mem_cons.1 hu with e | hu
    · cases e
      exact ⟨_, _, hy⟩
    · exact parseSteps_mem hz _ _ _ hu
  | (n, .func i) :: l, st, x, h, m, qs, e, hu => by
    rcases List.mem_cons.1 hu with e | hu
    · cases e
    · exact parseSteps_mem (l := l) h _ _ _ hu
  | (n, .cell i) :: l, st, x, h, m, qs, e, hu => by
    rcases List.mem_cons.1 hu with e | hu
    · cases e
    · exact parseSteps_mem (l := l) h _ _ _ hu

theorem names_withInput (ps : List (String × Srt)) : ∀ p ∈ withInput ps, p.1 ∈ ps.map (·.1) ++ ["in"] := by
  intro p hp
  have : (withInput ps).map Prod.fst = stepNames ps := by
    rw [withInput_eq, numFrom_names]; simp [stepNames]
  have h : p.1 ∈ (withInput ps).map Prod.fst := List.mem_map.2 ⟨p, hp, rfl⟩
  rw [this] at h
  exact h

theorem take_prefix {α : Type} {a b : List α} (h : a <+: b) : b.take a.length = a := by
  obtain ⟨c, rfl⟩ := h
  simp

/-- The variables of a truncated list. -/
theorem trunc_keeps {E n r es t x} {st : St} {k : Nat} (hk : (st.bvars.take k).length = k) (h : parse E n r es t (st.trunc k) = .ok x) :
    x.2.bvars.take k = st.bvars.take k := by
  have h := take_prefix (parse_grows E n r _ _ _ _ h)
  simp only [St.trunc, hk] at h
  exact h

structure AssignKnown (E : Env) (D : DEnv) (Γ : List String) (a : AssignDecl) : Prop where
  cell : ∃ sorts, D.functions.lookup a.cell = some (.cell sorts) ∧ ∀ t ∈ a.args.take sorts.length, Fits E.fits t → Known E.voc Γ t
  term : Fits E.fits a.term → Known E.voc Γ a.term
  fresh : ∀ b ∈ a.fresh.getD [], b.2 ∈ D.sorts.map (·.1)

theorem parseCellArgs_known {E fuel k σ} {Γ : List String} : ∀ {l : List (Tm × Srt)} {st x}, (st.bvars.take k).length = k → (∀ p ∈ st.bvars.take k, p.1 ∈ Γ) →
    parseCellArgs E fuel k σ l st = .ok x → x.2.bvars.take k = st.bvars.take k ∧ ∀ q ∈ l, Fits E.fits q.1 → Known E.voc Γ q.1
  | [], st, x, _, _, h => by cases h; exact ⟨rfl, nofun⟩
  | (t, s) :: l, st, x, hk, hb, h => by
    simp only [parseCellArgs, bind_ok] at h
    obtain ⟨y, hy, z, hz, h⟩ := h
    cases h
    have e := trunc_keeps hk hy
    obtain ⟨g1, g2⟩ := parseCellArgs_known (Γ := Γ) (by rw [e]; exact hk) (by rw [e]; exact hb) hz
    refine ⟨g1.trans e, fun q hq hf => ?_⟩
    rcases List.mem_cons.1 hq with rfl | hq
    · exact known_of_parse hf hb hy
    · exact g2 q hq hf

theorem mem_zip_take {α β : Type} : ∀ {l : List α} {m : List β} {t : α}, t ∈ l.take m.length → ∃ s, (t, s) ∈ l.zip m
  | [], m, t, h => by simp at h
  | a :: l, [], t, h => by simp at h
  | a :: l, b :: m, t, h => by
    rw [List.length_cons, List.take_succ_cons] at h
    rcases List.mem_cons.1 h with rfl | h
    · exact ⟨b, List.mem_cons_self ..⟩
    · obtain ⟨s, hs⟩ := mem_zip_take h
      exact ⟨s, List.mem_cons_of_mem _ hs⟩

theorem parseAssign_known {D : DEnv} {fuel name ps a st x} (hw : st.bvars.take (ps.length + 1) = withInput ps)
    (h : parseAssign D fuel name ps a st = .ok x) : x.2.bvars.take (ps.length + 1) = withInput ps ∧
      AssignKnown D.toEnv D (ps.map (·.1) ++ ["in"] ++ (a.fresh.getD []).map (·.1)) a := by
  simp only [parseAssign, bind_ok] at h
  obtain ⟨v, hv, ss, hs, as, has, c, hc, h⟩ := h
  cases h
  have hs := cellArgs_some (ofOption_ok.1 hs)
  have hlen : (withInput ps).length = ps.length + 1 := withInput_len ps
  have hv' : v.2.bvars.take (ps.length + 1) = withInput ps ∧ (v.2.bvars.take (ps.length + 1 + v.1.length)).length = ps.length + 1 + v.1.length ∧
      (∀ p ∈ v.2.bvars.take (ps.length + 1 + v.1.length), p.1 ∈ ps.map (·.1) ++ ["in"] ++ (a.fresh.getD []).map (·.1)) ∧
      ∀ b ∈ a.fresh.getD [], b.2 ∈ D.sorts.map (·.1) := by
    cases hf : a.fresh with
    | none =>
      rw [hf] at hv
      cases hv
      refine ⟨hw, ?_, ?_, nofun⟩
      · show (st.bvars.take (ps.length + 1 + 0)).length = _
        rw [Nat.add_zero, hw, hlen]
        rfl
      · intro p hp
        have hp : p ∈ st.bvars.take (ps.length + 1) := hp
        rw [hw] at hp
        exact List.mem_append_left _ (names_withInput ps p hp)
    | some vs =>
      rw [hf] at hv
      obtain ⟨e1, e2, -, e3⟩ := parseFresh_ok hv
      have e2' : v.2.bvars = withInput ps ++ numFrom (ps.length + 1) (vs.map fun b => (b.1, D.sortD b.2)) := by
        rw [e2]; simp only [St.trunc, hw]
      have el : v.2.bvars.length = ps.length + 1 + v.1.length := by
        rw [e2', e1, List.length_append, hlen, List.length_map]
      refine ⟨?_, ?_, ?_, fun b hb => (e3 b hb).2.2⟩
      · rw [e2']; exact take_append rfl hlen
      · rw [List.take_of_length_le (Nat.le_of_eq el), el]
      · intro p hp
        have hp := List.mem_of_mem_take hp
        rw [e2'] at hp
        rcases List.mem_append.1 hp with hp | hp
        · exact List.mem_append_left _ (names_withInput ps p hp)
        · refine List.mem_append_right _ ?_
          have : p.1 ∈ (numFrom (ps.length + 1) (vs.map fun b => (b.1, D.sortD b.2))).map Prod.fst := List.mem_map.2 ⟨p, hp, rfl⟩
          rw [numFrom_names] at this
          simpa using this
  obtain ⟨w1, w2, w3, w4⟩ := hv'
  obtain ⟨a1, a2⟩ := parseCellArgs_known w2 w3 has
  have ec := trunc_keeps (by rw [a1]; exact w2) hc
  refine ⟨?_, ⟨ss, hs, fun t ht hf => ?_⟩, fun hf => ?_, w4⟩
  · have : ∀ l : List (String × Var), (l.take (ps.length + 1 + v.1.length)).take (ps.length + 1) = l.take (ps.length + 1) := by
      intro l; rw [List.take_take]; congr 1; omega
    show c.2.bvars.take _ = _
    rw [← this, ec, a1, this, w1]
  · obtain ⟨s, hs'⟩ : ∃ s, (t, s) ∈ a.args.zip ss := by
      exact mem_zip_take ht
    exact a2 _ hs' hf
  · exact known_of_parse hf (by simp only [St.trunc]; rw [a1]; exact w3) hc

theorem parseAssigns_known {D : DEnv} {fuel name ps} : ∀ {l : List AssignDecl} {st x}, st.bvars.take (ps.length + 1) = withInput ps →
    parseAssigns D fuel name ps l st = .ok x → ∀ a ∈ l, AssignKnown D.toEnv D (ps.map (·.1) ++ ["in"] ++ (a.fresh.getD []).map (·.1)) a
  | [], _, _, _, _, a, h => by cases h
  | b :: l, st, x, hw, h, a, ha => by
    simp only [parseAssigns, bind_ok] at h
    obtain ⟨y, hy, z, hz, h⟩ := h
    obtain ⟨g1, g2⟩ := parseAssign_known hw hy
    rcases List.mem_cons.1 ha with rfl | ha
    · exact g2
    · exact parseAssigns_known g1 hz a ha

theorem parseStep_known {D : DEnv} {fuel name ps d st x} (h : parseStep D fuel name ps d st = .ok x) :
    (Fits D.toEnv.fits d.message → Known D.toEnv.voc (ps.map (·.1) ++ ["in"]) d.message) ∧
    (Fits D.toEnv.fits d.condition → Known D.toEnv.voc (ps.map (·.1) ++ ["in"]) d.condition) ∧
    ∀ a ∈ d.assigns, AssignKnown D.toEnv D (ps.map (·.1) ++ ["in"] ++ (a.fresh.getD []).map (·.1)) a := by
  simp only [parseStep, bind_ok] at h
  obtain ⟨m, hm, c, hc, as, has, h⟩ := h
  have hlen : (withInput ps).length = ps.length + 1 := withInput_len ps
  have em : m.2.bvars.take (ps.length + 1) = withInput ps := by
    have := take_prefix (parse_grows _ _ _ _ _ _ _ hm)
    simp only [hlen] at this
    exact this
  have ec := trunc_keeps (by rw [em]; exact hlen) hc
  refine ⟨fun hf => known_of_parse hf (names_withInput ps) hm, fun hf => known_of_parse hf (by simp only [St.trunc]; rw [em]; exact names_withInput ps) hc, ?_⟩
  refine parseAssigns_known ?_ has
  simp only [St.trunc, List.take_take, Nat.min_self]
  rw [ec, em]

theorem parseOrderDecl_known {D : DEnv} {fuel o st x} (h : parseOrderDecl D fuel o st = .ok x) :
    (∀ b ∈ o.vars, b.2 ∈ D.sorts.map (·.1)) ∧
    (Fits D.toEnv.fits o.t1 → Known D.toEnv.voc (o.vars.map (·.1)) o.t1) ∧
    (Fits D.toEnv.fits o.t2 → Known D.toEnv.voc (o.vars.map (·.1)) o.t2) ∧
    ∀ g, o.guard = some g → Fits D.toEnv.fits g → Known D.toEnv.voc (o.vars.map (·.1)) g := by
  simp only [parseOrderDecl, bind_ok] at h
  obtain ⟨ss, hss, g, hg, a, ha, b, hb, h⟩ := h
  obtain ⟨k1, rfl⟩ := sortList_ok.1 hss
  rw [zip_sorts] at hg ha hb
  have hn : ∀ p ∈ numbered (o.vars.map fun b => (b.1, D.sortD b.2)), p.1 ∈ o.vars.map (·.1) := by
    intro p hp
    have : p.1 ∈ (numbered (o.vars.map fun b => (b.1, D.sortD b.2))).map Prod.fst := List.mem_map.2 ⟨p, hp, rfl⟩
    rw [numbered_eq, numFrom_names] at this
    simpa using this
  generalize hΓ : numbered (o.vars.map fun b => (b.1, D.sortD b.2)) = Γ at hg ha hb hn
  have eg : g.2.bvars.take Γ.length = Γ ∧ ∀ t, o.guard = some t → Fits D.toEnv.fits t → Known D.toEnv.voc (o.vars.map (·.1)) t := by
    unfold parseGuard at hg
    split at hg
    · rename_i t ht
      refine ⟨take_prefix (parse_grows _ _ _ _ _ _ _ hg), fun u hu hf => ?_⟩
      rw [ht] at hu
      cases hu
      exact known_of_parse hf hn hg
    · rename_i ht
      cases hg
      exact ⟨by simp, fun u hu => by rw [ht] at hu; cases hu⟩
  have ea := trunc_keeps (by rw [eg.1]) ha
  rw [eg.1] at ea
  refine ⟨fun b hb => k1 _ (List.mem_map.2 ⟨b, hb, rfl⟩), fun hf => known_of_parse hf ?_ ha, fun hf => known_of_parse hf ?_ hb, eg.2⟩
  · simp only [St.trunc]; rw [eg.1]; exact hn
  · simp only [St.trunc]; rw [ea]; exact hn

theorem Known.mono {V W : Voc} (h : V.Le W) {Γ t} (k : Known V Γ t) : Known W Γ t := fun u hu => (k u hu).mono h

/-- **C89.** Every text that is read of an accepted file mentions only what the file declares, what is built in, and variables: those in scope, and
those that the text binds. The number of arguments is assumed not to exceed the parameters, because arguments beyond are not read;
variables are not restricted to the scope of their binder because those of `let` leak out of it (C19). -/
theorem C89_declared_partial (ord : List (String × Cache) → List (String × Cache)) (hord : ∀ l, (ord l).Perm l) (fuel : Nat) (ig sh : Bool)
    (l : List Decl) (P : LProblem) (h : load ord fuel ig (env0 sh) l = .ok P) (Γ : List String) (t : Tm) (ht : TextOf ig l Γ t)
    (hf : Fits (FitsOf l) t) : Known (vocOf l) Γ t := by
  simp only [load, bind_ok] at h
  obtain ⟨D1, h1, ⟨F, q⟩, h2, ss, h3, as, h4, qq, h5, cs, h6, ls, h7, os, h8, -⟩ := h
  have hacc : (declareSorts l (env0 sh)).bind (fetchAll l) = .ok (F, q) := bind_ok.2 ⟨D1, h1, h2⟩
  obtain ⟨hok, e1, e2, e3, e4, e5, e6, -⟩ := (C24_accepted_iff _ l F q).1 hacc
  rw [e1] at h3 h4 h5 h6 h7 h8
  rw [e2] at h4
  rw [e4] at h8
  have hf' : Fits (fileEnv (env0 sh) l).toEnv.fits t := fun u hu => (hf u hu).mono fun f n h => fits_le sh l h
  refine Known.mono (voc_le sh l) ?_
  have asserted : ∀ {st y}, parseAssert (fileEnv (env0 sh) l).toEnv fuel t st = .ok y → Known (fileEnv (env0 sh) l).toEnv.voc [] t :=
    fun h => known_of_parse hf' (fun p hp => by cases hp) h
  have step : ∀ {d}, Decl.step d ∈ l →
      (Fits (fileEnv (env0 sh) l).toEnv.fits d.message → Known (fileEnv (env0 sh) l).toEnv.voc (d.params.map (·.1) ++ ["in"]) d.message) ∧
      (Fits (fileEnv (env0 sh) l).toEnv.fits d.condition → Known (fileEnv (env0 sh) l).toEnv.voc (d.params.map (·.1) ++ ["in"]) d.condition) ∧
      ∀ a ∈ d.assigns, AssignKnown (fileEnv (env0 sh) l).toEnv (fileEnv (env0 sh) l) (d.params.map (·.1) ++ ["in"] ++ (a.fresh.getD []).map (·.1)) a := by
    intro d hd
    obtain ⟨st', y, hy⟩ := parseSteps_mem h3 _ _ _ ((hord _).mem_iff.2 (mem_step sh hd))
    have := parseStep_known hy
    simp only [List.map_map, Function.comp_def] at this
    exact this
  have order : ∀ {o}, Decl.order o ∈ l → ∃ st' y, parseOrderDecl (fileEnv (env0 sh) l) fuel o st' = .ok y :=
    fun ho => parseOrders_mem h8 _ (List.mem_filterMap.2 ⟨_, ho, rfl⟩)
  cases ht with
  | assertion hd =>
    obtain ⟨st', y, hy⟩ := parseAsserts_mem h4 t (List.mem_filterMap.2 ⟨_, hd, rfl⟩)
    exact asserted hy
  | query hd =>
    have : t ∈ queriesOf l := List.mem_filterMap.2 ⟨_, hd, rfl⟩
    rw [e6, List.mem_singleton] at this
    subst this
    exact asserted h5
  | lem hi hd =>
    subst hi
    simp only [Bool.false_eq_true, if_false] at h7
    rw [e3] at h7
    obtain ⟨st', y, hy⟩ := parseAsserts_mem h7 t (List.mem_filterMap.2 ⟨_, hd, rfl⟩)
    exact asserted hy
  | fst hd => exact (parseOrderDecl_known (order hd).choose_spec.choose_spec).2.1 hf'
  | snd hd => exact (parseOrderDecl_known (order hd).choose_spec.choose_spec).2.2.1 hf'
  | guard hd hg => exact (parseOrderDecl_known (order hd).choose_spec.choose_spec).2.2.2 _ hg hf'
  | message hd => exact (step hd).1 hf'
  | condition hd => exact (step hd).2.1 hf'
  | content hd ha => exact ((step hd).2.2 _ ha).term hf'
  | cellArg hd ha hc hm =>
    obtain ⟨sorts, e, k⟩ := ((step hd).2.2 _ ha).cell
    have := (C57_names (env0 sh) l hok).2.1 _ _ _ hc
    rw [this] at e
    cases e
    rw [List.length_map] at k
    exact k t hm hf'

/-- **C89 (cells and types).** In an accepted file only declared cells are assigned, and the fresh variables of assignments and the variables of orders have
declared types. -/
theorem C89_cells (ord : List (String × Cache) → List (String × Cache)) (hord : ∀ l, (ord l).Perm l) (fuel : Nat) (ig sh : Bool)
    (l : List Decl) (P : LProblem) (h : load ord fuel ig (env0 sh) l = .ok P) :
    (∀ d, Decl.step d ∈ l → ∀ a ∈ d.assigns, (∃ as s, Decl.cell a.cell as s ∈ l) ∧ ∀ b ∈ a.fresh.getD [], (vocOf l).types b.2) ∧
    (∀ o, Decl.order o ∈ l → ∀ b ∈ o.vars, (vocOf l).types b.2) ∧
    ∀ d ∈ l, ∀ s ∈ d.sortNames, (vocOf l).types s := by
  simp only [load, bind_ok] at h
  obtain ⟨D1, h1, ⟨F, q⟩, h2, ss, h3, as, h4, qq, h5, cs, h6, ls, h7, os, h8, -⟩ := h
  have hacc : (declareSorts l (env0 sh)).bind (fetchAll l) = .ok (F, q) := bind_ok.2 ⟨D1, h1, h2⟩
  obtain ⟨hok, e1, e2, e3, e4, e5, e6, -⟩ := (C24_accepted_iff _ l F q).1 hacc
  rw [e1] at h3 h8
  rw [e4] at h8
  have types : ∀ s, s ∈ (fileEnv (env0 sh) l).sorts.map (·.1) → (vocOf l).types s := by
    intro s h
    rw [fileEnv_sorts, withTypes_names, List.mem_append] at h
    exact h.symm
  refine ⟨fun d hd a ha => ?_, fun o ho b hb => ?_, fun d hd s hs => (hok.sorts d hd s hs).symm⟩
  · obtain ⟨st', y, hy⟩ := parseSteps_mem h3 _ _ _ ((hord _).mem_iff.2 (mem_step sh hd))
    have k := (parseStep_known hy).2.2 a ha
    refine ⟨?_, fun b hb => types _ (k.fresh b hb)⟩
    obtain ⟨sorts, e, -⟩ := k.cell
    rcases mem_fileEnv (lookup_map_mem e) with h | ⟨d', hd', e'⟩ | e'
    · obtain ⟨j, e, -⟩ := env0_base sh _ h
      cases e
    · cases d' <;> simp only [mkCache, Option.some.injEq, reduceCtorEq, Prod.mk.injEq, and_false] at e'
      obtain ⟨rfl, -⟩ := e'
      exact ⟨_, _, hd'⟩
    · simp at e'
  · obtain ⟨st', y, hy⟩ := parseOrders_mem h8 o (List.mem_filterMap.2 ⟨_, ho, rfl⟩)
    exact types _ ((parseOrderDecl_known hy).1 b hb)

/-! ## Examples -/

theorem sub_cvar {u : Tm} {x} : Sub u (.cvar x) ↔ u = .cvar x := ⟨fun h => by cases h; rfl, fun h => h ▸ .refl⟩

theorem sub_app {u : Tm} {f args} : Sub u (.app f args) ↔ u = .app f args ∨ ∃ a ∈ args, Sub u a :=
  ⟨fun h => by
    cases h with
    | refl => exact .inl rfl
    | app h k => exact .inr ⟨_, h, k⟩, fun h => by
    rcases h with rfl | ⟨a, h, k⟩
    · exact .refl
    · exact .app h k⟩

theorem sub_infx {u : Tm} {op ts} : Sub u (.infx op ts) ↔ u = .infx op ts ∨ ∃ a ∈ ts, Sub u a :=
  ⟨infx_inv, fun h => by
    rcases h with rfl | ⟨a, h, k⟩
    · exact .refl
    · exact .infx h k⟩

theorem sub_quant {u : Tm} {k vs b} : Sub u (.quant k vs b) ↔ u = .quant k vs b ∨ Sub u b :=
  ⟨fun h => by
    cases h with
    | refl => exact .inl rfl
    | quant k => exact .inr k, fun h => by
    rcases h with rfl | k
    · exact .refl
    · exact .quant k⟩

/-- Whether `n` arguments are not too many for `f`, computed. -/
def fitsB (l : List Decl) (f : String) (n : Nat) : Bool :=
  (l.all fun d => match d with
    | .func g a _ => g != f || decide (n ≤ a.length)
    | .cell g a _ => g != f || decide (n ≤ a.length + 1)
    | .step d => d.name != f || decide (n ≤ d.params.length)
    | _ => true) &&
  (f != "init" || n == 0) &&
  (builtinFunctions.all fun p => p.1 != f || match p.2 with
    | .func i => match i.sig with
      | .fixed a _ => decide (n ≤ a.length)
      | .nary => true
      | .eq2 => decide (n ≤ 2)
      | .ite3 => decide (n ≤ 3)
    | _ => true) &&
  (!(["true", "True", "false", "False"].contains f) || n == 0) && (f != "not" || decide (n ≤ 1))

theorem fitsB_sound {l : List Decl} {f n} (h : fitsB l f n = true) : FitsOf l f n := by
  simp only [fitsB, Bool.and_eq_true, List.all_eq_true, Bool.or_eq_true, bne_iff_ne, ne_eq, beq_iff_eq, decide_eq_true_eq, Bool.not_eq_true'] at h
  obtain ⟨⟨⟨⟨h1, h2⟩, h3⟩, h4⟩, h5⟩ := h
  refine ⟨fun a o hd => ?_, fun a s hd => ?_, fun d hd e => ?_, fun e => ?_, fun i hi => ?_, fun e => ?_, fun e => ?_⟩
  · simpa using h1 _ hd
  · simpa using h1 _ hd
  · simpa [e] using h1 _ hd
  · simpa [e] using h2
  · have := h3 _ hi
    simp only [not_true_eq_false, false_or] at this
    cases hs : i.sig <;> simp_all [atMost]
  · rcases h4 with h | h
    · rw [List.contains_eq_mem] at h
      simp only [decide_eq_false_iff_not] at h
      exact absurd e h
    · exact h
  · simpa [e] using h5

example : ∃ P, load id 6 false (env0 true) exFile = .ok P ∧
    Known (vocOf exFile) ["i", "in"] exStep.message ∧ Known (vocOf exFile) ["i", "in", "j"] (.app "n" [.cvar "j"]) ∧
    ¬ Known (vocOf exFile) ["i", "in"] (.app "g" [.cvar "i"]) := by
  obtain ⟨P, h⟩ := exFile_loads
  refine ⟨P, h, ?_, ?_, fun h => ?_⟩
  · refine C89_declared_partial id (fun _ => .refl _) 6 false true exFile P h _ _ (.message (d := exStep) (by simp [exFile])) ?_
    intro u hu
    simp only [exStep, sub_app, sub_infx, sub_cvar, List.mem_cons, List.not_mem_nil, or_false, exists_eq_or_imp, exists_eq_left] at hu
    rcases hu with rfl | rfl | rfl | rfl
    · exact fitsB_sound (by decide +kernel)
    · trivial
    · exact fitsB_sound (by decide +kernel)
    · trivial
  · refine C89_declared_partial id (fun _ => .refl _) 6 false true exFile P h _ _
      (.content (d := exStep) (a := ⟨some [("j", "Idx")], "c", [.cvar "j"], .app "n" [.cvar "j"]⟩) (by simp [exFile]) (by simp [exStep])) ?_
    intro u hu
    simp only [sub_app, sub_cvar, List.mem_cons, List.not_mem_nil, or_false, exists_eq_left] at hu
    rcases hu with rfl | rfl
    · exact fitsB_sound (by decide +kernel)
    · trivial
  · have : "g" ∈ objNames exFile ∨ "g" = "init" ∨ "g" ∈ builtinFunctions.map (·.1) ∨ "g" ∈ ["true", "True", "false", "False", "not"] := h _ .refl
    revert this
    decide +kernel

/-- A file that passes an undeclared name as an argument too many. -/
def exExtra : List Decl := [.func "f" ["Message"] "Message",
  .query (.infx .eq [.app "f" [.app "empty" [], .app "undeclared" []], .app "empty" []])]

/-- A file with a macro, not used, that mentions an undeclared name. -/
def exUnused : List Decl := [.mac "m" [("x", "Message")] (.app "undeclared" [.cvar "x"]), .query (.app "true" [])]

/-- **C89 is false of the arguments beyond the parameters of a function, of the bodies of macros that are not used, and of the scopes of
`let`**: files that mention undeclared names there are accepted. -/
theorem C89_counterexample :
    ((∃ P, load id 6 false (env0 true) exExtra = .ok P) ∧ ¬ (vocOf exExtra).funs "undeclared" ∧
      ∃ t, Decl.query t ∈ exExtra ∧ Sub (.app "undeclared" []) t) ∧
    ((∃ P, load id 6 false (env0 true) exUnused = .ok P) ∧ ¬ (vocOf exUnused).funs "undeclared" ∧
      ∃ m ps b, Decl.mac m ps b ∈ exUnused ∧ Sub (.app "undeclared" [.cvar "x"]) b) ∧
    ∃ P, load id 6 false (env0 true) [.query (.infx .and [.letin ("x", "Bool") (.app "true" []) (.cvar "x"), .cvar "x"])] = .ok P := by
  refine ⟨⟨Out.isOk_iff.1 (by decide +kernel), ?_, _, .tail _ (List.mem_cons_self ..), .infx (List.mem_cons_self ..) (.app (.tail _ (List.mem_cons_self ..)) .refl)⟩,
    ⟨Out.isOk_iff.1 (by decide +kernel), ?_, "m", [("x", "Message")], _, List.mem_cons_self .., .refl⟩, Out.isOk_iff.1 (by decide +kernel)⟩ <;>
  · simp only [vocOf]
    decide +kernel

end Scp
end CV
