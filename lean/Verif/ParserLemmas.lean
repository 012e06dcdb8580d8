import Verif.ParserSpec
import Verif.SubstProps
import Verif.IteratorProps
/-
Lemmas about scopes, substitution and binder blocks used by the elaborator theorems.
-/
set_option linter.unusedSimpArgs false
namespace CV
namespace Prs
open Fm

/-! ## Substitution -/

theorem occ_apply {F : Type} (s : Subst F) (v : Var) (f : Fm F) :
    (∀ x ∈ f.bound, ∀ w : Var, w.id = x.id → s w = .var w) → OccursFree v (s.apply f) →
      ∃ w, OccursFree w f ∧ OccursFree v (s w) := by
  induction f using Fm.ind with
  | hvar w => intro _ h; exact ⟨w, .var, by simpa [Subst.apply] using h⟩
  | happ g args ih =>
    intro hb h
    simp only [Subst.apply, Subst.applys_eq] at h
    cases h with
    | app ha h =>
      obtain ⟨a, hm, rfl⟩ := List.mem_map.1 ha
      clear ha
      have ha := hm
      obtain ⟨w, hw, hv⟩ := ih a ha
        (fun x hx => hb x (by simp only [bound, bounds_eq, List.mem_flatMap]; exact ⟨a, ha, hx⟩)) h
      exact ⟨w, .app ha hw, hv⟩
  | hquant q vs b ih =>
    intro hb h
    simp only [Subst.apply] at h
    cases h with
    | quant hv h =>
      obtain ⟨w, hw, hv'⟩ := ih (fun x hx => hb x (by simp only [bound, List.mem_append]; exact Or.inr hx)) h
      refine ⟨w, .quant (fun hin => ?_) hw, hv'⟩
      obtain ⟨x, hx, hxw⟩ := List.mem_map.1 hin
      have := hb x (by simp only [bound, List.mem_append]; exact Or.inl hx) w hxw.symm
      rw [this] at hv'
      cases hv'
      exact hv hin

theorem bound_apply {F : Type} (s : Subst F) (x : Var) (f : Fm F) :
    x ∈ (s.apply f).bound → x ∈ f.bound ∨ ∃ w ∈ f.vars, x ∈ (s w).bound := by
  induction f using Fm.ind with
  | hvar w => intro h; exact Or.inr ⟨w, by simp [vars], by simpa [Subst.apply] using h⟩
  | happ g args ih =>
    intro h
    simp only [Subst.apply, Subst.applys_eq, bound, bounds_eq, List.mem_flatMap, List.mem_map] at h
    obtain ⟨_, ⟨a, ha, rfl⟩, h⟩ := h
    rcases ih a ha h with h | ⟨w, hw, h⟩
    · left; simp only [bound, bounds_eq, List.mem_flatMap]; exact ⟨a, ha, h⟩
    · right; refine ⟨w, ?_, h⟩; simp only [vars, varss_eq, List.mem_flatMap]; exact ⟨a, ha, hw⟩
  | hquant q vs b ih =>
    intro h
    simp only [Subst.apply, bound, List.mem_append] at h
    rcases h with h | h
    · left; simp only [bound, List.mem_append]; exact Or.inl h
    · rcases ih h with h | ⟨w, hw, h⟩
      · left; simp only [bound, List.mem_append]; exact Or.inr h
      · right; exact ⟨w, by simpa [vars] using hw, h⟩

theorem eval_agree_occ {F D : Type} (M : Str F D) (f : Fm F) (ρ ρ' : Valn D)
    (h : ∀ v, OccursFree v f → ρ v.id = ρ' v.id) : eval M ρ f = eval M ρ' f :=
  eval_agree M f ρ ρ' fun v hv => h v ((mem_freeIn v f []).1 hv).2

/-! ## Outcomes -/

theorem Out.bind_ok {α β : Type} {x : Out α} {f : α → Out β} {b : β} (h : x.bind f = .ok b) :
    ∃ a, x = .ok a ∧ f a = .ok b := by
  cases x with
  | ok a => exact ⟨a, rfl, h⟩
  | err => cases h
  | panic => cases h
  | loop => cases h

theorem Out.ofOption_ok {α : Type} {x : Option α} {a : α} (h : Out.ofOption x = .ok a) : x = some a := by
  cases x with
  | some b => cases h; rfl
  | none => cases h

/-! ## Scopes -/

/-- Variables are numbered by position. -/
def IdsOk (bv : List (String × Var)) : Prop := ∀ (i : Nat) (p : String × Var), bv[i]? = some p → p.2.id = i

/-- `Γ` is what the names in scope refer to; the other names of the list are in `D`. -/
structure Sc (Γ : List (String × Var)) (D : List String) (bv : List (String × Var)) : Prop where
  ids : IdsOk bv
  live : ∀ p ∈ Γ, bv.find? (fun b => b.1 == p.1) = some p
  names : ∀ p ∈ bv, p.1 ∈ Γ.map Prod.fst ∨ p.1 ∈ D

theorem Sc.lt {Γ D bv} (h : Sc Γ D bv) : ∀ p ∈ Γ, p.2.id < bv.length := by
  intro p hp
  obtain ⟨i, hi, he⟩ := List.getElem_of_mem (List.mem_of_find?_eq_some (h.live p hp))
  have := h.ids i p (by rw [List.getElem?_eq_getElem hi, he])
  omega

theorem Sc.extend {Γ D bv lk} (h : Sc Γ D bv) (hi : IdsOk (bv ++ lk)) : Sc Γ (lk.map Prod.fst ++ D) (bv ++ lk) where
  ids := hi
  live p hp := by rw [List.find?_append, h.live p hp]; rfl
  names p hp := by
    rcases List.mem_append.1 hp with hp | hp
    · rcases h.names p hp with h | h
      · exact Or.inl h
      · exact Or.inr (List.mem_append_right _ h)
    · exact Or.inr (List.mem_append_left _ (List.mem_map_of_mem hp))

theorem Sc.mono {Γ D D' bv} (h : Sc Γ D bv) (hd : ∀ x ∈ D, x ∈ D') : Sc Γ D' bv :=
  ⟨h.ids, h.live, fun p hp => (h.names p hp).imp id (hd _)⟩

theorem Sc.not_mem {Γ D bv} (h : Sc Γ D bv) {x : String} (h1 : x ∉ Γ.map Prod.fst) (h2 : x ∉ D) :
    x ∉ bv.map Prod.fst := by
  intro hx
  obtain ⟨p, hp, rfl⟩ := List.mem_map.1 hx
  rcases h.names p hp with h | h
  · exact h1 h
  · exact h2 h

theorem find_none {bv : List (String × Var)} {x : String} (h : x ∉ bv.map Prod.fst) :
    bv.find? (fun b => b.1 == x) = none := by
  rw [List.find?_eq_none]
  intro p hp
  simp only [beq_iff_eq]
  intro e
  exact h (List.mem_map.2 ⟨p, hp, e⟩)

theorem IdsOk.push {bv : List (String × Var)} (h : IdsOk bv) (x : String) (s : Srt) :
    IdsOk (bv ++ [(x, ⟨bv.length, s⟩)]) := by
  intro i p hp
  by_cases hi : i < bv.length
  · rw [List.getElem?_append_left hi] at hp; exact h i p hp
  · rw [List.getElem?_append_right (by omega)] at hp
    obtain ⟨k, hk⟩ : ∃ k, i - bv.length = k := ⟨_, rfl⟩
    rw [hk] at hp
    cases k with
    | zero => simp at hp; subst hp; show bv.length = i; omega
    | succ k => simp at hp

/-- Push a live name. -/
theorem Sc.push {Γ D bv} (h : Sc Γ D bv) {x : String} (hx : x ∉ bv.map Prod.fst) (s : Srt) :
    Sc ((x, ⟨bv.length, s⟩) :: Γ) D (bv ++ [(x, ⟨bv.length, s⟩)]) where
  ids := h.ids.push x s
  live p hp := by
    rw [List.find?_append]
    rcases List.mem_cons.1 hp with rfl | hp
    · rw [find_none hx]; simp
    · rw [h.live p hp]; rfl
  names p hp := by
    rcases List.mem_append.1 hp with hp | hp
    · rcases h.names p hp with h | h
      · exact Or.inl (List.mem_cons_of_mem _ h)
      · exact Or.inr h
    · simp only [List.mem_singleton] at hp; subst hp; exact Or.inl (by simp)

/-- Push a dead name. -/
theorem Sc.pushDead {Γ D bv} (h : Sc Γ D bv) (x : String) (s : Srt) :
    Sc Γ (x :: D) (bv ++ [(x, ⟨bv.length, s⟩)]) := by
  have := h.extend (h.ids.push x s)
  simpa using this

/-! ## Value environments -/

section
variable {D : Type}

/-- The value environment a scope and a valuation give. -/
def envOf (Γ : List (String × Var)) (ρ : Valn D) : VEnv D := Γ.map fun p => (p.1, p.2.sort, ρ p.2.id)

theorem envOf_lookup {Γ Dd bv} (h : Sc Γ Dd bv) (ρ : Valn D) (x : String) (hx : x ∈ Γ.map Prod.fst) :
    ∃ v, bv.find? (fun b => b.1 == x) = some (x, v) ∧ (x, v) ∈ Γ ∧ (envOf Γ ρ).lookup x = some (v.sort, ρ v.id) := by
  have key : ∀ Γ', (∀ p ∈ Γ', p ∈ Γ) → x ∈ Γ'.map Prod.fst →
      ∃ v, bv.find? (fun b => b.1 == x) = some (x, v) ∧ (x, v) ∈ Γ ∧ (envOf Γ' ρ).lookup x = some (v.sort, ρ v.id) := by
    intro Γ'
    induction Γ' with
    | nil => intro _ h; cases h
    | cons p Γ' ih =>
      intro hs hx
      by_cases hp : p.1 = x
      · refine ⟨p.2, ?_, ?_, ?_⟩
        · rw [← hp]; exact h.live p (hs p (by simp))
        · rw [← hp]; exact hs p (by simp)
        · simp [envOf, List.lookup, hp]
      · have hx' : x ∈ Γ'.map Prod.fst := by
          rcases List.mem_cons.1 hx with e | e
          · exact absurd e.symm hp
          · exact e
        obtain ⟨v, h1, h2, h3⟩ := ih (fun q hq => hs q (List.mem_cons_of_mem _ hq)) hx'
        refine ⟨v, h1, h2, ?_⟩
        have : (x == p.1) = false := by simp; exact fun e => hp e.symm
        simp only [envOf, List.map_cons, List.lookup, this]
        exact h3
  exact key Γ (fun _ h => h) hx

theorem envOf_lookup_none {Γ : List (String × Var)} (ρ : Valn D) (x : String) (hx : x ∉ Γ.map Prod.fst) :
    (envOf Γ ρ).lookup x = none := by
  induction Γ with
  | nil => rfl
  | cons p Γ ih =>
    simp only [List.map_cons, List.mem_cons, not_or] at hx
    have : (x == p.1) = false := by simp [hx.1]
    simp only [envOf, List.map_cons, List.lookup, this]
    exact ih hx.2

theorem envOf_congr {Γ : List (String × Var)} {ρ ρ' : Valn D} (h : ∀ p ∈ Γ, ρ p.2.id = ρ' p.2.id) :
    envOf Γ ρ = envOf Γ ρ' := by
  apply List.map_congr_left
  intro p hp
  rw [h p hp]

theorem envOf_set {Γ : List (String × Var)} (ρ : Valn D) (i : Nat) (d : D) (h : ∀ p ∈ Γ, p.2.id < i) :
    envOf Γ (ρ.set i d) = envOf Γ ρ :=
  envOf_congr fun p hp => Valn.set_ne _ _ (by have := h p hp; omega)

/-! ## Binder blocks -/

/-- Names and variables of a block, pushed in order. -/
def extS : List (String × Var) → List (String × Var) → List (String × Var)
  | [], Γ => Γ
  | p :: l, Γ => extS l (p :: Γ)

theorem mem_extS (l Γ : List (String × Var)) (p : String × Var) : p ∈ extS l Γ ↔ p ∈ l ∨ p ∈ Γ := by
  induction l generalizing Γ with
  | nil => simp [extS]
  | cons q l ih =>
    simp only [extS, ih, List.mem_cons]
    constructor
    · rintro (h | h | h) <;> simp [h]
    · rintro ((h | h) | h) <;> simp [h]

theorem names_extS (l Γ : List (String × Var)) (x : String) :
    x ∈ (extS l Γ).map Prod.fst ↔ x ∈ l.map Prod.fst ++ Γ.map Prod.fst := by
  simp only [List.mem_map, List.mem_append, mem_extS]
  constructor
  · rintro ⟨p, hp | hp, rfl⟩
    · exact Or.inl ⟨p, hp, rfl⟩
    · exact Or.inr ⟨p, hp, rfl⟩
  · rintro (⟨p, hp, rfl⟩ | ⟨p, hp, rfl⟩)
    · exact ⟨p, Or.inl hp, rfl⟩
    · exact ⟨p, Or.inr hp, rfl⟩

/-- Named variables numbered from `n`. -/
def numFrom (n : Nat) : List (String × Srt) → List (String × Var)
  | [] => []
  | b :: l => (b.1, ⟨n, b.2⟩) :: numFrom (n + 1) l

theorem numFrom_names (n : Nat) (l : List (String × Srt)) : (numFrom n l).map Prod.fst = l.map Prod.fst := by
  induction l generalizing n with
  | nil => rfl
  | cons b l ih => simp [numFrom, ih]

theorem numFrom_sorts (n : Nat) (l : List (String × Srt)) : ((numFrom n l).map Prod.snd).map Var.sort = l.map Prod.snd := by
  induction l generalizing n with
  | nil => rfl
  | cons b l ih => simp only [numFrom, List.map_cons, ih]

theorem numFrom_ge (n : Nat) (l : List (String × Srt)) : ∀ p ∈ numFrom n l, n ≤ p.2.id ∧ p.2.id < n + l.length := by
  induction l generalizing n with
  | nil => intro p hp; cases hp
  | cons b l ih =>
    intro p hp
    simp only [numFrom, List.mem_cons] at hp
    simp only [List.length_cons]
    rcases hp with rfl | hp
    · exact ⟨Nat.le_refl n, by show n < _; omega⟩
    · have := ih (n + 1) p hp; omega

theorem numFrom_length (n : Nat) (l : List (String × Srt)) : (numFrom n l).length = l.length := by
  induction l generalizing n with
  | nil => rfl
  | cons b l ih => simp [numFrom, ih]

theorem Sc.block {Γ Dd bv} (h : Sc Γ Dd bv) (l : List (String × Srt)) (hn : (l.map Prod.fst).Nodup)
    (hf : ∀ x ∈ l.map Prod.fst, x ∉ bv.map Prod.fst) :
    Sc (extS (numFrom bv.length l) Γ) Dd (bv ++ numFrom bv.length l) := by
  induction l generalizing Γ bv with
  | nil => simpa [extS, numFrom] using h
  | cons b l ih =>
    simp only [List.map_cons, List.nodup_cons] at hn
    have hb := hf b.1 (by simp)
    have h' := h.push hb b.2
    have := ih h' hn.2 (by
      intro x hx
      have hx' := hf x (by simp only [List.map_cons, List.mem_cons]; exact Or.inr hx)
      simp only [List.map_append, List.map_cons, List.map_nil, List.mem_append, List.mem_singleton, not_or]
      exact ⟨hx', fun e => hn.1 (e ▸ hx)⟩)
    simpa [extS, numFrom] using this

/-- Reading a block of values gives the environment of the specification. -/
theorem envOf_block (j : D) (l : List (String × Srt)) : ∀ (n : Nat) (Γ : List (String × Var)) (ρ : Valn D) (ds : List D),
    (∀ p ∈ Γ, p.2.id < n) →
      envOf (extS (numFrom n l) Γ) (setMany j ρ ((numFrom n l).map Prod.snd) ds) = ext j l ds (envOf Γ ρ) := by
  induction l with
  | nil => intro n Γ ρ ds h; rfl
  | cons b l ih =>
    intro n Γ ρ ds h
    simp only [numFrom, extS, setMany, List.map_cons, ext]
    rw [ih (n + 1) ((b.1, ⟨n, b.2⟩) :: Γ)]
    · congr 1
      show (b.1, b.2, (ρ.set n (ds.headD j)) n) :: envOf Γ (ρ.set n (ds.headD j)) = _
      rw [Valn.set_self, envOf_set _ _ _ h]
    · intro p hp
      rcases List.mem_cons.1 hp with rfl | hp
      · exact Nat.lt_succ_self n
      · have := h p hp; omega

theorem quantVal_eq (j : D) (M : Str PF D) (q : QKind) (P : Valn D → Prop) (vs : List Var) : ∀ ρ : Valn D,
    quantVal M q vs P ρ ↔ qSem M q (vs.map Var.sort) fun ds => P (setMany j ρ vs ds) := by
  induction vs with
  | nil => intro ρ; cases q <;> simp [quantVal, qSem, setMany]
  | cons v vs ih =>
    intro ρ
    cases q with
    | all =>
      simp only [quantVal, qSem, List.map_cons, setMany, List.headD_cons, List.tail_cons]
      exact forall_congr' fun d => imp_congr_right fun _ => ih _
    | ex =>
      simp only [quantVal, qSem, List.map_cons, setMany, List.headD_cons, List.tail_cons]
      exact exists_congr fun d => and_congr_right fun _ => ih _

theorem setMany_other (j : D) (vs : List Var) : ∀ (ρ : Valn D) (ds : List D) (i : Nat), i ∉ vs.map Var.id →
    setMany j ρ vs ds i = ρ i := by
  induction vs with
  | nil => intro ρ ds i _; rfl
  | cons v vs ih =>
    intro ρ ds i hi
    simp only [List.map_cons, List.mem_cons, not_or] at hi
    rw [setMany, ih _ _ _ hi.2, Valn.set_ne _ _ hi.1]

theorem setMany_num (j : D) (l : List (String × Srt)) : ∀ (n : Nat) (ρ : Valn D) (ds : List D) (i : Nat),
    l.length = ds.length →
    setMany j ρ ((numFrom n l).map Prod.snd) ds i = if n ≤ i ∧ i < n + l.length then ds.getD (i - n) j else ρ i := by
  induction l with
  | nil => intro n ρ ds i _; simp only [numFrom, List.map_nil, setMany, List.length_nil]; rw [if_neg (by omega)]
  | cons b l ih =>
    intro n ρ ds i hl
    cases ds with
    | nil => simp at hl
    | cons d ds =>
      simp only [numFrom, List.map_cons, setMany, List.headD_cons, List.tail_cons]
      rw [ih (n + 1) _ _ _ (by simpa using hl)]
      by_cases h1 : i = n
      · subst h1
        rw [if_neg (by omega), Valn.set_self, if_pos (by simp)]
        simp
      · rw [Valn.set_ne _ _ h1]
        by_cases h2 : n ≤ i ∧ i < n + (l.length + 1)
        · rw [if_pos (by omega), if_pos (by simpa using h2)]
          obtain ⟨k, hk⟩ : ∃ k, i - n = k + 1 := ⟨i - n - 1, by omega⟩
          have hk' : i - (n + 1) = k := by omega
          rw [hk, hk', List.getD_cons_succ]
        · rw [if_neg (by omega), if_neg (by simpa using h2)]

end

/-! ## Bindings -/

theorem parseBinding_ok {E : Env} {b : Bnd} {st : St} {v : Var} {st' : St} (h : parseBinding E b st = .ok (v, st')) :
    ∃ s, E.sorts b.2 = some s ∧ v = ⟨st.bvars.length, s⟩ ∧ st' = { st with bvars := st.bvars ++ [(b.1, v)] } := by
  simp only [parseBinding] at h
  split at h
  · cases h
  · split at h
    · cases h
    · rename_i s hs
      cases h
      exact ⟨s, hs, rfl, rfl⟩

theorem parseBindings_ok {E : Env} (vs : List Bnd) : ∀ {st : St} {ws : List Var} {st' : St},
    parseBindings E vs st = .ok (ws, st') →
      ws = (numFrom st.bvars.length (sorted E vs)).map Prod.snd ∧
      st' = { st with bvars := st.bvars ++ numFrom st.bvars.length (sorted E vs) } := by
  induction vs with
  | nil => intro st ws st' h; cases h; simp [sorted, numFrom]
  | cons b vs ih =>
    intro st ws st' h
    simp only [parseBindings] at h
    obtain ⟨x, hx, h⟩ := Out.bind_ok h
    obtain ⟨y, hy, h⟩ := Out.bind_ok h
    cases h
    obtain ⟨s, hs, h1, h2⟩ := parseBinding_ok (v := x.1) (st' := x.2) hx
    obtain ⟨h3, h4⟩ := ih (ws := y.1) (st' := y.2) hy
    have hsort : sorted E (b :: vs) = (b.1, s) :: sorted E vs := by simp [sorted, hs]
    rw [hsort]
    simp only [numFrom, List.map_cons]
    rw [h3, h4, h2, h1]
    simp

/-- Without shadowing, accepted binders are fresh. -/
theorem parseBinding_fresh {E : Env} {b : Bnd} {st : St} {y : Var × St} (hE : E.shadowing = false)
    (h : parseBinding E b st = .ok y) : b.1 ∉ st.bvars.map Prod.fst := by
  simp only [parseBinding, hE, Bool.not_false, Bool.and_true] at h
  split at h
  · cases h
  · rename_i hn
    intro hm
    apply hn
    have : (st.bvars.map (·.1)).contains b.1 = true := by
      rw [List.contains_iff_mem]; exact hm
    rw [this, Bool.or_true]

theorem parseBindings_fresh {E : Env} (hE : E.shadowing = false) (vs : List Bnd) : ∀ {st : St} {y : List Var × St},
    parseBindings E vs st = .ok y → (vs.map Prod.fst).Nodup ∧ ∀ x ∈ vs.map Prod.fst, x ∉ st.bvars.map Prod.fst := by
  induction vs with
  | nil => intro st y h; simp
  | cons b vs ih =>
    intro st y h
    simp only [parseBindings] at h
    obtain ⟨x, hx, h⟩ := Out.bind_ok h
    obtain ⟨z, hz, h⟩ := Out.bind_ok h
    have hb := parseBinding_fresh hE hx
    obtain ⟨s, hs, h1, h2⟩ := parseBinding_ok (v := x.1) (st' := x.2) hx
    obtain ⟨h3, h4⟩ := ih hz
    have hb' : ∀ y ∈ vs.map Prod.fst, y ∉ st.bvars.map Prod.fst ∧ y ≠ b.1 := by
      intro y hy
      have := h4 y hy
      rw [h2] at this
      simpa [not_or] using this
    refine ⟨?_, ?_⟩
    · simp only [List.map_cons, List.nodup_cons]
      exact ⟨fun hm => (hb' _ hm).2 rfl, h3⟩
    · intro y hy
      simp only [List.map_cons, List.mem_cons] at hy
      rcases hy with rfl | hy
      · exact hb
      · exact (hb' y hy).1

end Prs
end CV
