import Verif.Discover
import Verif.SigUnify
set_option linter.unusedSimpArgs false
/-
Property C68: what is found in the output of a solver generalises what was printed.
-/
namespace CV
namespace Disc
open Prs
variable {G : Type}

/-! ### Specification -/

/-- Putting the unknown terms back in the place of the variables. `name` prints symbols. -/
def quantName : QKind → String
  | .all => "forall"
  | .ex => "exists"

mutual
def back (name : G → String) (κ : Nat → TF) : Fm G → TF
  | .var v => κ v.id
  | .app g as => .app (name g) (backs name κ as)
  | .quant q _ b => .binder (quantName q) [] [back name κ b]
def backs (name : G → String) (κ : Nat → TF) : List (Fm G) → List TF
  | [] => []
  | a :: as => back name κ a :: backs name κ as
end

/-- A term whose head is not a known function. -/
def Unknown (K : String → Option (Fun G)) : TF → Prop
  | .var _ => True
  | .app h _ => K h = none
  | .binder _ _ _ => False

/-- No binder in a term. -/
inductive NoBinder : TF → Prop
  | var (x) : NoBinder (.var x)
  | app {h args} (ha : ∀ a ∈ args, NoBinder a) : NoBinder (.app h args)

/-- The map of functions is made from their names (container/container.rs:161). -/
def Named (K : String → Option (Fun G)) (name : G → String) : Prop := ∀ h f, K h = some f → name f.sym = h

/-! ### The map of variables -/

theorem lookup_mem {k : Key} {v : Var} : ∀ {vm : VM}, vm.lookup k = some v → (k, v) ∈ vm
  | [], h => by cases h
  | (k', v') :: vm, h => by
    rw [List.lookup_cons] at h
    split at h
    · rename_i e
      have : k = k' := by simpa using e
      cases h; subst this; exact List.mem_cons_self ..
    · exact List.mem_cons_of_mem _ (lookup_mem h)

theorem mem_insert {vm : VM} {k : Key} {v : Var} {p : Key × Var} (h : p ∈ vm.insert k v) : p = (k, v) ∨ p ∈ vm := by
  unfold VM.insert at h
  split at h
  · obtain ⟨q, hq, rfl⟩ := List.mem_map.1 h
    split
    · exact .inl rfl
    · exact .inr hq
  · rw [List.mem_append, List.mem_singleton] at h
    exact h.symm

theorem insert_old {vm : VM} {k : Key} {v : Var} (h : (vm.lookup k).isSome) :
    (vm.insert k v).length = vm.length ∧ (k, v) ∈ vm.insert k v := by
  unfold VM.insert
  rw [if_pos h]
  refine ⟨List.length_map .., ?_⟩
  obtain ⟨w, hw⟩ := Option.isSome_iff_exists.1 h
  exact List.mem_map.2 ⟨(k, w), lookup_mem hw, by simp⟩

theorem insert_new {vm : VM} {k : Key} {v : Var} (h : ¬ (vm.lookup k).isSome) :
    (vm.insert k v).length = vm.length + 1 ∧ (k, v) ∈ vm.insert k v := by
  unfold VM.insert
  rw [if_neg h]
  simp

/-- The numbers given so far, with what they stand for: `H` extends the map. -/
structure Inv (K : String → Option (Fun G)) (vm : VM) (H : List (Nat × TF)) : Prop where
  entry : ∀ k v, (k, v) ∈ vm → ∃ t, k = .tmp t ∧ (v.id, t) ∈ H
  one : ∀ i t t', (i, t) ∈ H → (i, t') ∈ H → t = t'
  unknown : ∀ i t, (i, t) ∈ H → Unknown K t
  numbers : (∀ i t, (i, t) ∈ H → i < vm.length) ∨
    (∃ p ∈ vm, p.2.id = vm.length) ∧ ∀ i t, (i, t) ∈ H → i ≤ vm.length

theorem Inv.start (K : String → Option (Fun G)) : Inv K [] [] :=
  ⟨fun _ _ h => (nomatch h), fun _ _ _ h => (nomatch h), fun _ _ h => (nomatch h), .inl fun _ _ h => (nomatch h)⟩

theorem toVar_inv {K : String → Option (Fun G)} {t : TF} (ht : Unknown K t) {es : Px} {vm vm' : VM} {st st' : Store} {v : Var}
    {H : List (Nat × TF)} (hI : Inv K vm H) (h : toVar true (.tmp t) es vm st = .ok (v, vm', st')) :
    ∃ H', (∀ p ∈ H, p ∈ H') ∧ Inv K vm' H' ∧ (v.id, t) ∈ H' := by
  unfold toVar at h
  split at h
  · rename_i r v₀ st₀ hv
    cases h
    obtain ⟨w, hw, hm⟩ := Option.bind_eq_some_iff.1 hv
    obtain ⟨_, _, he⟩ := Option.map_eq_some_iff.1 hm
    cases he
    obtain ⟨t', he, hH⟩ := hI.entry _ _ (lookup_mem hw)
    cases he
    exact ⟨H, fun _ h => h, hI, hH⟩
  · split at h
    case h_2 => cases h
    rename_i s hs
    split at h
    · cases h
    rename_i hany
    cases h
    have hclean : ∀ i t, (i, t) ∈ H → i < vm.length := by
      rcases hI.numbers with h | ⟨⟨p, hp, e⟩, _⟩
      · exact h
      · exfalso
        apply hany
        simp only [Bool.true_and, List.any_eq_true, beq_iff_eq]
        exact ⟨p, hp, e⟩
    refine ⟨(vm.length, t) :: H, fun _ h => List.mem_cons_of_mem _ h, ⟨?_, ?_, ?_, ?_⟩, List.mem_cons_self ..⟩
    · intro k w hk
      rcases mem_insert hk with e | hk
      · cases e; exact ⟨t, rfl, List.mem_cons_self ..⟩
      · obtain ⟨u, e, hu⟩ := hI.entry k w hk
        exact ⟨u, e, List.mem_cons_of_mem _ hu⟩
    · intro i u u' h1 h2
      rcases List.mem_cons.1 h1 with e1 | h1 <;> rcases List.mem_cons.1 h2 with e2 | h2
      · cases e1; cases e2; rfl
      · cases e1; exact absurd (hclean _ _ h2) (Nat.lt_irrefl _)
      · cases e2; exact absurd (hclean _ _ h1) (Nat.lt_irrefl _)
      · exact hI.one i u u' h1 h2
    · intro i u h1
      rcases List.mem_cons.1 h1 with e1 | h1
      · cases e1; exact ht
      · exact hI.unknown i u h1
    · by_cases hk : (vm.lookup (.tmp t)).isSome
      · obtain ⟨h1, h2⟩ := insert_old (v := ⟨vm.length, s⟩) hk
        refine .inr ⟨⟨_, h2, h1.symm⟩, fun i u hu => ?_⟩
        rw [h1]
        rcases List.mem_cons.1 hu with e | hu
        · cases e; exact Nat.le_refl _
        · exact Nat.le_of_lt (hclean _ _ hu)
      · obtain ⟨h1, h2⟩ := insert_new (v := ⟨vm.length, s⟩) hk
        refine .inl fun i u hu => ?_
        rw [h1]
        rcases List.mem_cons.1 hu with e | hu
        · cases e; exact Nat.lt_succ_self _
        · exact Nat.lt_succ_of_lt (hclean _ _ hu)

/-- What a formula stands for, given the numbers. -/
def Good (name : G → String) (H : List (Nat × TF)) (φ : Fm G) (t : TF) : Prop :=
  (∀ κ : Nat → TF, (∀ p ∈ H, κ p.1 = p.2) → back name κ φ = t) ∧ ∀ v ∈ φ.vars, ∃ u, (v.id, u) ∈ H

def Goods (name : G → String) (H : List (Nat × TF)) (φs : List (Fm G)) (ts : List TF) : Prop :=
  (∀ κ : Nat → TF, (∀ p ∈ H, κ p.1 = p.2) → backs name κ φs = ts) ∧ ∀ φ ∈ φs, ∀ v ∈ φ.vars, ∃ u, (v.id, u) ∈ H

theorem Good.mono {name : G → String} {H H' : List (Nat × TF)} {φ : Fm G} {t : TF} (h : Good name H φ t) (hs : ∀ p ∈ H, p ∈ H') :
    Good name H' φ t :=
  ⟨fun κ hκ => h.1 κ (fun p hp => hκ p (hs p hp)), fun v hv => (h.2 v hv).imp fun _ => hs _⟩

theorem bind_ok {α β : Type} {o : Out α} {f : α → Out β} {r : β} : o.bind f = .ok r ↔ ∃ a, o = .ok a ∧ f a = .ok r := by
  cases o <;> simp [Out.bind]

theorem convs_inv {K : String → Option (Fun G)} {name : G → String} : ∀ (args : List TF),
    (∀ a ∈ args, ∀ (es : Px) (vm : VM) (st : Store) (H : List (Nat × TF)), Inv K vm H → ∀ φ vm' st',
      conv K true a es vm st = .ok (φ, vm', st') → ∃ H', (∀ p ∈ H, p ∈ H') ∧ Inv K vm' H' ∧ Good name H' φ a) →
    ∀ (ps : List Px) (vm : VM) (st : Store) (H : List (Nat × TF)), Inv K vm H → ∀ φs vm' st',
      convs K true args ps vm st = .ok (φs, vm', st') → ∃ H', (∀ p ∈ H, p ∈ H') ∧ Inv K vm' H' ∧ Goods name H' φs args := by
  intro args
  induction args with
  | nil =>
    intro _ ps vm st H hI φs vm' st' h
    simp only [convs] at h
    cases h
    exact ⟨H, fun _ h => h, hI, fun _ _ => rfl, fun _ h => (nomatch h)⟩
  | cons a as ih =>
    intro hall ps vm st H hI φs vm' st' h
    cases ps with
    | nil => simp only [convs] at h; cases h
    | cons p ps =>
      simp only [convs] at h
      obtain ⟨⟨φ, vm₁, st₁⟩, h1, h⟩ := bind_ok.1 h
      obtain ⟨⟨φs', vm₂, st₂⟩, h2, h⟩ := bind_ok.1 h
      cases h
      obtain ⟨H₁, hs₁, hI₁, hg₁⟩ := hall a (List.mem_cons_self ..) p vm st H hI φ vm₁ st₁ h1
      obtain ⟨H₂, hs₂, hI₂, hg₂⟩ := ih (fun b hb => hall b (List.mem_cons_of_mem _ hb)) ps _ _ H₁ hI₁ _ _ _ h2
      refine ⟨H₂, fun p hp => hs₂ p (hs₁ p hp), hI₂, ?_, ?_⟩
      · intro κ hκ
        rw [backs, (hg₁.mono hs₂).1 κ hκ, hg₂.1 κ hκ]
      · exact List.forall_mem_cons.2 ⟨(hg₁.mono hs₂).2, hg₂.2⟩

theorem conv_inv {K : String → Option (Fun G)} {name : G → String} (hN : Named K name) (t : TF) (hb : NoBinder t) :
    ∀ (es : Px) (vm : VM) (st : Store) (H : List (Nat × TF)), Inv K vm H → ∀ φ vm' st',
      conv K true t es vm st = .ok (φ, vm', st') → ∃ H', (∀ p ∈ H, p ∈ H') ∧ Inv K vm' H' ∧ Good name H' φ t := by
  have hvar : ∀ (t : TF), Unknown K t → ∀ (es : Px) (vm : VM) (st : Store) (H : List (Nat × TF)), Inv K vm H → ∀ φ vm' st',
      ((toVar true (.tmp t) es vm st).bind fun r => .ok (.var r.1, r.2)) = Out.ok ((φ : Fm G), vm', st') →
      ∃ H', (∀ p ∈ H, p ∈ H') ∧ Inv K vm' H' ∧ Good name H' φ t := by
    intro t ht es vm st H hI φ vm' st' h
    obtain ⟨⟨v₀, vm₁, st₁⟩, h1, h⟩ := bind_ok.1 h
    cases h
    obtain ⟨H', hs, hI', hm⟩ := toVar_inv ht hI h1
    refine ⟨H', hs, hI', fun κ hκ => hκ _ hm, ?_⟩
    intro v hv
    rw [Fm.vars, List.mem_singleton] at hv
    subst hv
    exact ⟨t, hm⟩
  induction t using TF.ind with
  | hb h vs args ih => cases hb
  | hv x =>
    intro es vm st H hI φ vm' st' h
    rw [conv] at h
    exact hvar (.var x) trivial es vm st H hI φ vm' st' h
  | ha hd args ih =>
    intro es vm st H hI φ vm' st' h
    rw [conv] at h
    split at h
    · rename_i f hf
      split at h
      · cases h
      dsimp only at h
      split at h
      · cases h
      rename_i s st₁ hu
      obtain ⟨⟨φs, vm₂, st₂⟩, h1, h⟩ := bind_ok.1 h
      cases h
      cases hb with
      | app ha =>
          obtain ⟨H', hs, hI', hg⟩ := convs_inv args (fun a ha' => ih a ha' (ha a ha')) _ vm st₁ H hI _ _ _ h1
          refine ⟨H', hs, hI', ?_, ?_⟩
          · intro κ hκ
            rw [back, hg.1 κ hκ, hN _ _ hf]
          · intro v hv
            simp only [Fm.vars, Fm.varss_eq, List.mem_flatMap] at hv
            obtain ⟨a, ha, hv⟩ := hv
            exact hg.2 a ha v hv
    · rename_i hf
      exact hvar (.app hd args) hf es vm st H hI φ vm' st' h

/-- **C68 (with debug assertions).** When the conversion of what was printed succeeds, putting the unknown terms back in
the place of the variables gives what was printed: the result generalises it. Each variable stands for a term whose
head is not a known function. -/
theorem C68_generalises_debug {K : String → Option (Fun G)} {name : G → String} (hN : Named K name) {t : TF} (hb : NoBinder t)
    {es : Px} {st : Store} {φ : Fm G} {vm : VM} {st' : Store} (h : conv K true t es [] st = .ok (φ, vm, st')) :
    ∃ κ : Nat → TF, back name κ φ = t ∧ ∀ v ∈ φ.vars, Unknown K (κ v.id) := by
  obtain ⟨H, _, hI, hg⟩ := conv_inv hN t hb es [] st [] (Inv.start K) φ vm st' h
  classical
  refine ⟨fun i => if hi : ∃ u, (i, u) ∈ H then hi.choose else .var "", ?_, ?_⟩
  · apply hg.1
    intro p hp
    have hi : ∃ u, (p.1, u) ∈ H := ⟨p.2, hp⟩
    rw [dif_pos hi]
    exact hI.one _ _ _ hi.choose_spec hp
  · intro v hv
    have hi := hg.2 v hv
    dsimp only
    rw [dif_pos hi]
    exact hI.unknown _ _ hi.choose_spec

/-! ### Without debug assertions -/

theorem bind_rel {α β : Type} {o o' : Out α} {f f' : α → Out β} (h : o = .panic ∨ o' = o)
    (hf : ∀ a, o = .ok a → f a = .panic ∨ f' a = f a) : o.bind f = .panic ∨ o'.bind f' = o.bind f := by
  rcases h with h | h
  · subst h; exact .inl rfl
  · subst h
    cases o' with
    | ok a => exact hf a rfl
    | err => exact .inr rfl
    | panic => exact .inr rfl
    | loop => exact .inr rfl

theorem toVar_release (k : Key) (es : Px) (vm : VM) (st : Store) :
    toVar true k es vm st = .panic ∨ toVar false k es vm st = toVar true k es vm st := by
  unfold toVar
  split
  · exact .inr rfl
  · split
    · by_cases h : (vm.any fun p => p.2.id == vm.length) = true
      · exact .inl (by simp only [h, Bool.and_self, if_true])
      · rw [Bool.not_eq_true] at h
        exact .inr (by simp only [h, Bool.and_false])
    · exact .inr rfl

theorem toVars_release : ∀ (xs : List String) (vm : VM) (st : Store),
    toVars true xs vm st = .panic ∨ toVars false xs vm st = toVars true xs vm st
  | [], _, _ => .inr rfl
  | x :: xs, vm, st => by
    simp only [toVars]
    exact bind_rel (toVar_release _ _ _ _) fun a _ => bind_rel (toVars_release xs _ _) fun _ _ => .inr rfl

mutual
/-- Without the assertion the conversion does the same, unless it fails. -/
theorem conv_release (K : String → Option (Fun G)) : ∀ (t : TF) (es : Px) (vm : VM) (st : Store),
    conv K true t es vm st = .panic ∨ conv K false t es vm st = conv K true t es vm st
  | .var x, es, vm, st => by
    rw [conv, conv]
    exact bind_rel (toVar_release _ _ _ _) fun _ _ => .inr rfl
  | .app hd args, es, vm, st => by
    rw [conv, conv]
    split
    · split
      · exact .inr rfl
      dsimp only
      split
      · exact .inr rfl
      exact bind_rel (convs_release K args _ _ _) fun _ _ => .inr rfl
    · exact bind_rel (toVar_release _ _ _ _) fun _ _ => .inr rfl
  | .binder hd vs args, es, vm, st => by
    rw [conv, conv]
    split
    · exact .inr rfl
    refine bind_rel (toVars_release _ _ _) fun u _ => ?_
    split
    · exact bind_rel (conv_release K _ _ _ _) fun _ _ => .inr rfl
    · exact .inr rfl
theorem convs_release (K : String → Option (Fun G)) : ∀ (ts : List TF) (ps : List Px) (vm : VM) (st : Store),
    convs K true ts ps vm st = .panic ∨ convs K false ts ps vm st = convs K true ts ps vm st
  | [], _, _, _ => .inr (by simp [convs])
  | _ :: _, [], _, _ => .inr (by simp [convs])
  | a :: as, p :: ps, vm, st => by
    simp only [convs]
    exact bind_rel (conv_release K a _ _ _) fun u _ => bind_rel (convs_release K as _ _ _) fun _ _ => .inr rfl
end

/-! ### Where the assertion holds -/

/-- The sorts of the arguments that a signature tells before they are looked at. -/
def expected : Sg → Nat → List (Option Srt)
  | .base (.fixed a _), _ => a.map some
  | .base .nary, n => List.replicate n (some .bool)
  | .base .eq2, _ => [none, none]
  | .base .ite3, _ => [some .bool, none, none]
  | .sub own, _ => [some own, none]

/-- The unknown term `u` occurs in a term, where the sort `s` is expected. -/
inductive At (K : String → Option (Fun G)) : Option Srt → TF → TF → Srt → Prop
  | here {u s} (hu : Unknown K u) : At K (some s) u u s
  | arg {e h f args} {i : Nat} {a e' u s} (hk : K h = some f) (ha : args[i]? = some a) (he : (expected f.sig args.length)[i]? = some e')
      (ht : At K e' a u s) : At K e (.app h args) u s

/-- Every unknown term is expected at one sort (up to evaluation). -/
def OneSort (K : String → Option (Fun G)) (t : TF) : Prop :=
  ∀ u s s', At K none t u s → At K none t u s' → evSort s = evSort s'

/-- No binder, and no `ite` (whose sort is found while looking at its arguments). -/
inductive Plain (K : String → Option (Fun G)) : TF → Prop
  | var (x) : Plain K (.var x)
  | app {h args} (hi : ∀ f, K h = some f → f.sig ≠ .base .ite3) (ha : ∀ a ∈ args, Plain K a) : Plain K (.app h args)

theorem Plain.noBinder {K : String → Option (Fun G)} {t : TF} (h : Plain K t) : NoBinder t := by
  induction h with
  | var x => exact .var x
  | app hi ha ih => exact .app ih

/-- Only the cell of `es` is changed, besides new ones. -/
def Frame (es : Px) (st st' : Store) : Prop :=
  st.length ≤ st'.length ∧ ∀ n, n < st.length → es ≠ .var n → (st'[n]?).join = (st[n]?).join

theorem Frame.refl (es : Px) (st : Store) : Frame es st st := ⟨Nat.le_refl _, fun _ _ _ => rfl⟩

theorem set_frame {es : Px} {st st' : Store} {s : Srt} (h : es.set st s = some st') : Frame es st st' := by
  cases es with
  | stat => cases h
  | var n =>
    simp only [Px.set] at h
    split at h
    case isFalse => cases h
    case isTrue hn =>
      cases h
      refine ⟨by simp, fun m hm e => ?_⟩
      have : n ≠ m := fun x => e (by rw [x])
      rw [List.getElem?_set_ne this]

theorem toVar_frame {dbg : Bool} {k : Key} {es : Px} {vm : VM} {st : Store} {r : Var × VM × Store}
    (h : toVar dbg k es vm st = .ok r) : Frame es st r.2.2 := by
  unfold toVar at h
  split at h
  · rename_i v st' hv
    cases h
    obtain ⟨w, hw, hm⟩ := Option.bind_eq_some_iff.1 hv
    obtain ⟨st₁, he, hp⟩ := Option.map_eq_some_iff.1 hm
    cases hp
    unfold Px.expects at he
    split at he
    · split at he
      · cases he; exact .refl _ _
      · cases he
    · exact set_frame he
  · split at h
    · split at h
      · cases h
      · cases h; exact .refl _ _
    · cases h

theorem unify_frame {o : Srt} {es : Px} {st st' : Store} {s : Srt} (h : (Px.stat o).unify st .ev es = some (s, st')) : Frame es st st' := by
  unfold Px.unify at h
  rw [show (Px.stat o).get st = some o from rfl] at h
  cases he : es.get st with
  | some b =>
    rw [he] at h
    dsimp only at h
    split at h
    · cases h; exact .refl _ _
    · cases h
  | none =>
    rw [he] at h
    obtain ⟨st₁, h1, h2⟩ := Option.map_eq_some_iff.1 h
    cases h2
    exact set_frame h1

/-- The proxies of a signature (other than that of `ite`) are apart, those that are not cells tell the expected sorts, and
the output is known. -/
theorem inst_plain {sig : Sg} (hi : sig ≠ .base .ite3) (st : Store) (n : Nat) : ∃ o k, (sig.inst st n).2 = (.stat o, st ++ List.replicate k none) ∧
    (sig.inst st n).1.Pairwise (fun p q => ∀ m, p = .var m → q ≠ .var m) ∧
    (∀ p ∈ (sig.inst st n).1, ∀ m, p = .var m → st.length ≤ m ∧ m < st.length + k) ∧
    (sig.inst st n).1.map (fun p => match p with | .stat s => some s | .var _ => none) = expected sig n := by
  cases sig with
  | sub own =>
    refine ⟨.bool, 1, rfl, ?_, ?_, rfl⟩ <;> simp [Sg.inst]
  | base s =>
    cases s with
    | fixed a o =>
      refine ⟨o, 0, by simp [Sg.inst, FSig.inst], ?_, ?_, ?_⟩
      · simp only [Sg.inst, FSig.inst, List.pairwise_map]
        exact List.pairwise_of_forall fun _ _ _ h => (nomatch h)
      · intro p hp m e
        simp only [Sg.inst, FSig.inst, List.mem_map] at hp
        obtain ⟨_, _, rfl⟩ := hp
        cases e
      · simp [Sg.inst, FSig.inst, expected, Function.comp_def]
    | nary =>
      refine ⟨.bool, 0, by simp [Sg.inst, FSig.inst], ?_, ?_, ?_⟩
      · simp only [Sg.inst, FSig.inst]
        rw [List.pairwise_replicate]
        exact .inr fun _ h => (nomatch h)
      · intro p hp m e
        simp only [Sg.inst, FSig.inst, List.mem_replicate] at hp
        obtain ⟨_, rfl⟩ := hp
        cases e
      · simp [Sg.inst, FSig.inst, expected]
    | eq2 => 
      refine ⟨.bool, 2, rfl, ?_, ?_, rfl⟩ <;> simp [Sg.inst, FSig.inst]
    | ite3 => exact absurd rfl hi

theorem get_frame {es p : Px} {st st' : Store} (h : Frame es st st') (hp : p.Valid st) (hn : ∀ m, es = .var m → p ≠ .var m) :
    p.get st' = p.get st := by
  cases p with
  | stat => rfl
  | var m => exact h.2 m hp (fun e => hn m e rfl)

/-- The sorts told by the proxies once the output has been unified. -/
theorem inst_get {sig : Sg} (hi : sig ≠ .base .ite3) {st : Store} {n : Nat} {es : Px} (hv : es.Valid st) {s : Srt} {st₁ : Store}
    (hu : (sig.inst st n).2.1.unify (sig.inst st n).2.2 .ev es = some (s, st₁)) :
    Frame es st st₁ ∧ (∀ p ∈ (sig.inst st n).1, p.Valid st₁) ∧
    (sig.inst st n).1.map (Px.get st₁) = expected sig n := by
  obtain ⟨o, k, h2, _, hm, he⟩ := inst_plain hi st n
  rw [h2] at hu
  have hf := unify_frame hu
  refine ⟨⟨?_, ?_⟩, ?_, ?_⟩
  · exact Nat.le_trans (by simp) hf.1
  · intro m hm' e
    rw [hf.2 m (by simp; omega) e, List.getElem?_append_left hm']
  · intro p hp
    cases p with
    | stat => trivial
    | var m =>
      have := (hm _ hp m rfl).2
      have h3 := hf.1
      simp only [List.length_append, List.length_replicate] at h3
      exact Nat.lt_of_lt_of_le this h3
  · rw [← he]
    apply List.map_congr_left
    intro p hp
    cases p with
    | stat => rfl
    | var m =>
      obtain ⟨h3, h4⟩ := hm _ hp m rfl
      have hne : es ≠ .var m := by
        intro e
        subst e
        exact absurd hv (Nat.not_lt.2 h3)
      show (st₁[m]?).join = none
      rw [hf.2 m (by simp; omega) hne, List.getElem?_append_right h3, List.getElem?_replicate]
      split <;> rfl

/-- The map holds what is allowed, with numbers below its size. -/
structure Clean (P : TF → Srt → Prop) (vm : VM) : Prop where
  entry : ∀ k v, (k, v) ∈ vm → ∃ u, k = .tmp u ∧ P u v.sort
  low : ∀ p ∈ vm, p.2.id < vm.length

theorem toVar_clean {P : TF → Srt → Prop} (hP : ∀ u s s', P u s → P u s' → evSort s = evSort s') {t : TF} {es : Px} {vm : VM} {st : Store}
    (hv : es.Valid st) (hs : ∀ s, es.get st = some s → P t s) (hc : Clean P vm) :
    toVar true (.tmp t) es vm st ≠ .panic ∧ ∀ r, toVar true (.tmp t) es vm st = .ok r → Clean P r.2.1 := by
  unfold toVar
  cases hl : vm.lookup (.tmp t) with
  | some w =>
    obtain ⟨u, e, hw⟩ := hc.entry _ _ (lookup_mem hl)
    cases e
    have : ∃ st', es.expects st .ev w.sort = some st' := by
      unfold Px.expects
      cases hg : es.get st with
      | some s =>
        dsimp only
        rw [if_pos ((eqRealm_ev_iff _ _).2 (hP _ _ _ (hs s hg) hw))]
        exact ⟨_, rfl⟩
      | none => exact Px.set_some hv hg
    obtain ⟨st', he⟩ := this
    simp only [Option.bind_some, he, Option.map_some]
    exact ⟨fun h => (nomatch h), fun r h => by cases h; exact hc⟩
  | none =>
    simp only [Option.bind_none]
    cases hg : es.get st with
    | none => exact ⟨fun h => (nomatch h), fun r h => (nomatch h)⟩
    | some s =>
      have : (vm.any fun p => p.2.id == vm.length) = false := by
        rw [List.any_eq_false]
        intro p hp e
        have := hc.low p hp
        rw [beq_iff_eq] at e
        omega
      simp only [this, Bool.and_false, Bool.false_eq_true, if_false]
      refine ⟨fun h => (nomatch h), fun r h => ?_⟩
      cases h
      obtain ⟨hlen, _⟩ := insert_new (v := ⟨vm.length, s⟩) (vm := vm) (k := .tmp t) (by rw [hl]; simp)
      refine ⟨fun k v hk => ?_, fun p hp => ?_⟩
      · rcases mem_insert hk with e | hk
        · cases e; exact ⟨t, rfl, hs s hg⟩
        · exact hc.entry k v hk
      · dsimp only
        rw [hlen]
        rcases mem_insert hp with e | hp
        · cases e; exact Nat.lt_succ_self _
        · exact Nat.lt_succ_of_lt (hc.low p hp)

theorem bind_clean {α β : Type} {o : Out α} {f : α → Out β} {Q : α → Prop} {R : β → Prop} (h : o ≠ .panic ∧ ∀ r, o = .ok r → Q r)
    (hf : ∀ a, o = .ok a → Q a → f a ≠ .panic ∧ ∀ r, f a = .ok r → R r) : o.bind f ≠ .panic ∧ ∀ r, o.bind f = .ok r → R r := by
  cases o with
  | ok a => exact hf a rfl (h.2 a rfl)
  | err => exact ⟨fun h => (nomatch h), fun r h => (nomatch h)⟩
  | panic => exact absurd rfl h.1
  | loop => exact ⟨fun h => (nomatch h), fun r h => (nomatch h)⟩

/-- What the conversion of a term guarantees. -/
def Steady (K : String → Option (Fun G)) (P : TF → Srt → Prop) (t : TF) : Prop :=
  ∀ (es : Px) (vm : VM) (st : Store), es.Valid st → (∀ u s, At K (es.get st) t u s → P u s) → Clean P vm →
    conv K true t es vm st ≠ .panic ∧ ∀ r, conv K true t es vm st = .ok r → Clean P r.2.1 ∧ Frame es st r.2.2

theorem convs_clean {K : String → Option (Fun G)} {P : TF → Srt → Prop} : ∀ (args : List TF), (∀ a ∈ args, Steady K P a) →
    ∀ (ps : List Px) (vm : VM) (st : Store), (∀ p ∈ ps, p.Valid st) → ps.Pairwise (fun p q => ∀ m, p = .var m → q ≠ .var m) →
      (∀ z ∈ args.zip ps, ∀ u s, At K (z.2.get st) z.1 u s → P u s) → Clean P vm →
      convs K true args ps vm st ≠ .panic ∧ ∀ r, convs K true args ps vm st = .ok r → Clean P r.2.1 ∧ st.length ≤ r.2.2.length ∧
        ∀ n, n < st.length → (∀ p ∈ ps, p ≠ .var n) → (r.2.2[n]?).join = (st[n]?).join
  | [], _, ps, vm, st, _, _, _, hc => by
    simp only [convs]
    exact ⟨fun h => (nomatch h), fun r h => by cases h; exact ⟨hc, Nat.le_refl _, fun _ _ _ => rfl⟩⟩
  | a :: as, _, [], vm, st, _, _, _, _ => by
    simp only [convs]
    exact ⟨fun h => (nomatch h), fun r h => (nomatch h)⟩
  | a :: as, hall, p :: ps, vm, st, hv, hp, hat, hc => by
    simp only [convs]
    rw [List.pairwise_cons] at hp
    refine bind_clean (hall a (List.mem_cons_self ..) p vm st (hv p (List.mem_cons_self ..)) (hat (a, p) (by simp)) hc) ?_
    intro r _ ⟨hc₁, hf₁⟩
    have hget : ∀ q ∈ ps, q.get r.2.2 = q.get st := fun q hq =>
      get_frame hf₁ (hv q (List.mem_cons_of_mem _ hq)) (hp.1 q hq)
    refine bind_clean (convs_clean as (fun b hb => hall b (List.mem_cons_of_mem _ hb)) ps r.2.1 r.2.2 ?_ hp.2 ?_ hc₁) ?_
    · intro q hq
      have := hv q (List.mem_cons_of_mem _ hq)
      cases q with
      | stat => trivial
      | var m => exact Nat.lt_of_lt_of_le this hf₁.1
    · intro z hz u s h
      rw [hget z.2 (List.of_mem_zip hz).2] at h
      exact hat z (List.mem_cons_of_mem _ hz) u s h
    · intro rs _ ⟨hc₂, hl, hf₂⟩
      refine ⟨fun h => (nomatch h), fun r' h => ?_⟩
      cases h
      refine ⟨hc₂, Nat.le_trans hf₁.1 hl, fun n hn hne => ?_⟩
      rw [hf₂ n (Nat.lt_of_lt_of_le hn hf₁.1) (fun q hq => hne q (List.mem_cons_of_mem _ hq)),
        hf₁.2 n hn (hne p (List.mem_cons_self ..))]

theorem conv_clean {K : String → Option (Fun G)} {P : TF → Srt → Prop} (hP : ∀ u s s', P u s → P u s' → evSort s = evSort s')
    (t : TF) (ht : Plain K t) : Steady K P t := by
  have hvar : ∀ (t : TF), Unknown K t → ∀ (es : Px) (vm : VM) (st : Store), es.Valid st →
      (∀ u s, At K (es.get st) t u s → P u s) → Clean P vm →
      ((toVar true (.tmp t) es vm st).bind fun r => Out.ok ((Fm.var r.1 : Fm G), r.2)) ≠ .panic ∧
        ∀ r, ((toVar true (.tmp t) es vm st).bind fun r => Out.ok ((Fm.var r.1 : Fm G), r.2)) = .ok r →
          Clean P r.2.1 ∧ Frame es st r.2.2 := by
    intro t hu es vm st hv hat hc
    refine bind_clean (toVar_clean hP hv (fun s hs => hat t s (by rw [hs]; exact .here hu)) hc) ?_
    intro r hr hq
    exact ⟨fun h => (nomatch h), fun r' h => by cases h; exact ⟨hq, toVar_frame hr⟩⟩
  induction t using TF.ind with
  | hb h vs args ih => cases ht
  | hv x =>
    intro es vm st hv hat hc
    rw [conv]
    exact hvar (.var x) trivial es vm st hv hat hc
  | ha hd args ih =>
    intro es vm st hv hat hc
    rw [conv]
    cases ht with
    | app hi ha =>
    cases hf : K hd with
    | none => exact hvar (.app hd args) hf es vm st hv hat hc
    | some f =>
      dsimp only
      split
      · exact ⟨fun h => (nomatch h), fun r h => (nomatch h)⟩
      split
      · exact ⟨fun h => (nomatch h), fun r h => (nomatch h)⟩
      rename_i s st₁ hu
      obtain ⟨hfr, hval, hget⟩ := inst_get (hi f hf) hv hu
      obtain ⟨o, k, _, hpw, hm, _⟩ := inst_plain (hi f hf) st args.length
      refine bind_clean (convs_clean args (fun a h => ih a h (ha a h)) _ vm st₁ hval hpw ?_ hc) ?_
      · intro z hz u s h
        obtain ⟨i, hi', hzi⟩ := List.mem_iff_getElem.1 hz
        simp only [List.length_zip, Nat.lt_min] at hi'
        rw [List.getElem_zip] at hzi
        subst hzi
        apply hat u s
        refine .arg (i := i) hf (List.getElem?_eq_getElem hi'.1) ?_ h
        rw [← hget, List.getElem?_map, List.getElem?_eq_getElem hi'.2]
        rfl
      · intro r _ ⟨hc₂, hl, hf₂⟩
        refine ⟨fun h => (nomatch h), fun r' h => ?_⟩
        cases h
        refine ⟨hc₂, Nat.le_trans hfr.1 hl, fun n hn hne => ?_⟩
        rw [hf₂ n (Nat.lt_of_lt_of_le hn hfr.1) ?_, hfr.2 n hn hne]
        intro p hp e
        exact absurd (hm p hp n e).1 (Nat.not_le.2 hn)

/-- **C68 (generalisation; partial).** When every unknown term of a literal is expected at one sort, and the literal has
no `ite`, an instance found for it generalises it: putting the unknown terms back in the place of the variables gives
what was printed. Missing: unknown terms at several sorts (`C68_sorts_counterexample`), and `ite`. -/
theorem C68_generalises_partial {K : String → Option (Fun G)} {name : G → String} (hN : Named K name) {t : TF} (ht : Plain K t)
    (h1 : OneSort K t) {r : Fm G × VM × Store} (h : conv K false t (.var 0) [] [none] = .ok r) :
    ∃ κ : Nat → TF, back name κ r.1 = t ∧ ∀ v ∈ r.1.vars, Unknown K (κ v.id) := by
  have hc := conv_clean (K := K) (P := fun u s => At K none t u s) h1 t ht (.var 0) [] [none] (Nat.zero_lt_one)
    (fun u s h => h) ⟨fun _ _ h => (nomatch h), fun _ h => (nomatch h)⟩
  rcases conv_release K t (.var 0) [] [none] with hp | he
  · exact absurd hp hc.1
  · rw [he] at h
    obtain ⟨φ, vm, st⟩ := r
    exact C68_generalises_debug hN ht.noBinder h

/-! ### Sorts -/

/-- Full lists of argument sorts, and the output, of the uses of a function. The sides of an equality need not agree. -/
inductive Use : Sg → List Srt → Srt → Prop
  | fixed (a o) : Use (.base (.fixed a o)) a o
  | nary (n) : Use (.base .nary) (List.replicate n .bool) .bool
  | eq (a b) : Use (.base .eq2) [a, b] .bool
  | ite (a) : Use (.base .ite3) [.bool, a, a] a
  | sub (own a) : Use (.sub own) [own, a] .bool

/-- A formula has a sort, up to evaluation. Arguments may be missing on the right. -/
inductive HasSort (K : String → Option (Fun G)) : Fm G → Srt → Prop
  | var {v s} (h : evSort v.sort = evSort s) : HasSort K (.var v) s
  | app {h f as ss o s} (hk : K h = some f) (ht : f.tmp = false) (hu : Use f.sig ss o) (ho : evSort o = evSort s)
      (hl : as.length ≤ ss.length) (ha : ∀ z ∈ as.zip ss, HasSort K z.1 z.2) : HasSort K (.app f.sym as) s
  | quant {q b s} (hs : evSort s = .bool) (hb : HasSort K b .bool) : HasSort K (.quant q [] b) s

theorem inst_use (sig : Sg) (st : Store) (n : Nat) (σ : Nat → Srt) :
    Use sig ((sig.inst st n).1.map (Px.val σ)) ((sig.inst st n).2.1.val σ) := by
  cases sig with
  | sub own => exact .sub own _
  | base s =>
    cases s with
    | fixed a o =>
      have : (a.map Px.stat).map (Px.val σ) = a := by simp [Function.comp_def, Px.val]
      simp only [Sg.inst, FSig.inst, this]
      exact .fixed a o
    | nary =>
      simp only [Sg.inst, FSig.inst, List.map_replicate]
      exact .nary n
    | eq2 => exact .eq _ _
    | ite3 => exact .ite _

theorem toVar_sort {dbg : Bool} {k : Key} {es : Px} {vm : VM} {st : Store} {r : Var × VM × Store}
    (h : toVar dbg k es vm st = .ok r) : SLe st r.2.2 ∧ ∃ s, es.get r.2.2 = some s ∧ evSort r.1.sort = evSort s := by
  unfold toVar at h
  split at h
  · rename_i v st' hv
    cases h
    obtain ⟨w, hw, hm⟩ := Option.bind_eq_some_iff.1 hv
    obtain ⟨st₁, he, hp⟩ := Option.map_eq_some_iff.1 hm
    cases hp
    refine ⟨Px.expects_le he, ?_⟩
    unfold Px.expects at he
    split at he
    · rename_i s hs
      split at he
      · rename_i heq
        cases he; exact ⟨s, hs, ((eqRealm_ev_iff _ _).1 heq).symm⟩
      · cases he
    · exact ⟨_, Px.get_set he, rfl⟩
  · split at h
    · rename_i s hs
      split at h
      · cases h
      · cases h; exact ⟨.refl _, s, hs, rfl⟩
    · cases h

/-- The variables of a binder are keys that are never in the map, at sorts that are not known: there is none. -/
theorem toVars_nil {dbg : Bool} {xs : List String} {vm : VM} (hvm : ∀ k v, (k, v) ∈ vm → ∃ u, k = .tmp u) {st : Store}
    {r : List Var × VM × Store} (h : toVars dbg xs vm st = .ok r) : xs = [] ∧ r = ([], vm, st) := by
  cases xs with
  | nil => simp only [toVars] at h; cases h; exact ⟨rfl, rfl⟩
  | cons x xs =>
    exfalso
    simp only [toVars] at h
    obtain ⟨u, h1, _⟩ := bind_ok.1 h
    unfold toVar at h1
    cases hl : vm.lookup (.str x) with
    | some w =>
      obtain ⟨_, e⟩ := hvm _ _ (lookup_mem hl)
      cases e
    | none =>
      rw [hl] at h1
      simp [Px.get] at h1

theorem toVar_keys {dbg : Bool} {t : TF} {es : Px} {vm : VM} {st : Store} {r : Var × VM × Store}
    (hvm : ∀ k v, (k, v) ∈ vm → ∃ u, k = .tmp u) (h : toVar dbg (.tmp t) es vm st = .ok r) : ∀ k v, (k, v) ∈ r.2.1 → ∃ u, k = .tmp u := by
  unfold toVar at h
  split at h
  · cases h; exact hvm
  · split at h
    · split at h
      · cases h
      · cases h
        intro k v hk
        rcases mem_insert hk with e | hk
        · cases e; exact ⟨t, rfl⟩
        · exact hvm k v hk
    · cases h

theorem inst_sle (sig : Sg) (st : Store) (n : Nat) : SLe st (sig.inst st n).2.2 := by
  cases sig with
  | base s => exact inst_le s st n
  | sub own => exact SLe.app _ _

mutual
theorem conv_sort (K : String → Option (Fun G)) (dbg : Bool) : ∀ (t : TF) (es : Px) (vm : VM) (st : Store) (r : Fm G × VM × Store),
    (∀ k v, (k, v) ∈ vm → ∃ u, k = Key.tmp u) → conv K dbg t es vm st = .ok r →
    (∀ k v, (k, v) ∈ r.2.1 → ∃ u, k = Key.tmp u) ∧ SLe st r.2.2 ∧ ∃ s, es.get r.2.2 = some s ∧ HasSort K r.1 s
  | .var x, es, vm, st, r, hvm, h => by
    rw [conv] at h
    obtain ⟨u, h1, h⟩ := bind_ok.1 h
    cases h
    obtain ⟨hle, s, hs, e⟩ := toVar_sort h1
    exact ⟨toVar_keys hvm h1, hle, s, hs, .var e⟩
  | .app hd args, es, vm, st, r, hvm, h => by
    rw [conv] at h
    split at h
    · rename_i f hf
      split at h
      · cases h
      rename_i htmp
      dsimp only at h
      split at h
      · cases h
      rename_i s st₁ hu
      obtain ⟨u, h1, h⟩ := bind_ok.1 h
      cases h
      obtain ⟨hk, hle, hlen, hargs⟩ := convs_sort K dbg args _ vm st₁ u hvm h1
      obtain ⟨a, b, ha, hb, hab⟩ := unify_matched hu
      have hle₁ : SLe st st₁ := (inst_sle f.sig st args.length).trans (Px.unify_le hu)
      refine ⟨hk, hle₁.trans hle, b, Px.get_mono hle hb, ?_⟩
      have hval : ∀ p s, Px.get u.2.2 p = some s → p.val (fun m => ((u.2.2[m]?).join).getD .message) = s := by
        intro p s hp
        cases p with
        | stat => cases hp; rfl
        | var m =>
          have : (u.2.2[m]?).join = some s := hp
          simp [Px.val, this]
      have huse := inst_use f.sig st args.length (fun m => ((u.2.2[m]?).join).getD .message)
      refine .app hf (by simpa using htmp) huse ?_ (by simpa using hlen) ?_
      · rw [hval _ _ (Px.get_mono hle ha)]
        exact (eqRealm_ev_iff _ _).1 hab
      · intro z hz
        rw [List.zip_map_right] at hz
        obtain ⟨y, hy, rfl⟩ := List.mem_map.1 hz
        obtain ⟨s', hs', hh⟩ := hargs y hy
        simp only [Prod.map, id]
        rw [hval _ _ hs']
        exact hh
    · obtain ⟨u, h1, h⟩ := bind_ok.1 h
      cases h
      obtain ⟨hle, s, hs, e⟩ := toVar_sort h1
      exact ⟨toVar_keys hvm h1, hle, s, hs, .var e⟩
  | .binder hd vs args, es, vm, st, r, hvm, h => by
    rw [conv] at h
    split at h
    · cases h
    rename_i s st₁ hu
    obtain ⟨u, h1, h⟩ := bind_ok.1 h
    obtain ⟨_, e⟩ := toVars_nil hvm h1
    subst e
    split at h
    · obtain ⟨w, h2, h⟩ := bind_ok.1 h
      cases h
      obtain ⟨_, hle, s', hs', hh⟩ := conv_sort K dbg _ _ _ _ _ hvm h2
      obtain ⟨a, b, ha, hb, hab⟩ := unify_matched hu
      have e2 := (eqRealm_ev_iff _ _).1 hab
      cases hs'
      cases hb
      exact ⟨hvm, (Px.unify_le hu).trans hle, a, Px.get_mono hle ha, .quant e2 hh⟩
    · cases h
theorem convs_sort (K : String → Option (Fun G)) (dbg : Bool) : ∀ (ts : List TF) (ps : List Px) (vm : VM) (st : Store)
    (r : List (Fm G) × VM × Store), (∀ k v, (k, v) ∈ vm → ∃ u, k = Key.tmp u) → convs K dbg ts ps vm st = .ok r →
    (∀ k v, (k, v) ∈ r.2.1 → ∃ u, k = Key.tmp u) ∧ SLe st r.2.2 ∧ r.1.length ≤ ps.length ∧
      ∀ z ∈ r.1.zip ps, ∃ s, z.2.get r.2.2 = some s ∧ HasSort K z.1 s
  | [], ps, vm, st, r, hvm, h => by
    simp only [convs] at h
    cases h
    exact ⟨hvm, .refl _, Nat.zero_le _, fun z hz => by simp at hz⟩
  | _ :: _, [], _, _, _, _, h => by simp [convs] at h
  | a :: as, p :: ps, vm, st, r, hvm, h => by
    simp only [convs] at h
    obtain ⟨u, h1, h⟩ := bind_ok.1 h
    obtain ⟨us, h2, h⟩ := bind_ok.1 h
    cases h
    obtain ⟨hk₁, hle₁, s, hs, hh⟩ := conv_sort K dbg a p vm st u hvm h1
    obtain ⟨hk₂, hle₂, hlen, hargs⟩ := convs_sort K dbg as ps _ _ us hk₁ h2
    refine ⟨hk₂, hle₁.trans hle₂, Nat.succ_le_succ hlen, ?_⟩
    intro z hz
    simp only [List.zip_cons_cons, List.mem_cons] at hz
    rcases hz with rfl | hz
    · exact ⟨s, Px.get_mono hle₂ hs, hh⟩
    · exact hargs z hz
end

/-- **C68 (sorts; partial).** Every instance found is a formula whose functions are known and applied at sorts that agree
with their signatures, up to evaluation. Missing: functions may have too few arguments (`C68_arity_counterexample`), and
the sides of an equality need not have the same sort (`C68_equality_counterexample`). -/
theorem C68_sorted_partial {K : String → Option (Fun G)} {t : TF} {r : Fm G × VM × Store}
    (h : conv K false t (.var 0) [] [none] = .ok r) : ∃ s, HasSort K r.1 s := by
  obtain ⟨_, _, s, _, hh⟩ := conv_sort K false t (.var 0) [] [none] r (fun _ _ h => (nomatch h)) h
  exact ⟨s, hh⟩

/-! ### What is found -/

/-- Specification of literals that use functions of fixed signatures and connectives as declared, around unknown terms. -/
inductive Typed (K : String → Option (Fun G)) : Srt → TF → Prop
  | unknown {u s} (hu : Unknown K u) : Typed K s u
  | fixed {h f args ss o s} (hk : K h = some f) (ht : f.tmp = false) (hf : f.sig = .base (.fixed ss o)) (ho : evSort o = evSort s)
      (hl : args.length = ss.length) (ha : ∀ z ∈ args.zip ss, Typed K z.2 z.1) : Typed K s (.app h args)
  | nary {h f args s} (hk : K h = some f) (ht : f.tmp = false) (hf : f.sig = .base .nary) (ho : evSort s = .bool)
      (ha : ∀ a ∈ args, Typed K .bool a) : Typed K s (.app h args)

theorem toVar_some {k : Key} {es : Px} {s : Srt} {vm : VM} {st : Store} (h : es.get st = some s) :
    ∃ r, toVar false k es vm st = .ok r := by
  unfold toVar
  cases (vm.lookup k).bind (fun v => (es.expects st .ev v.sort).map (v, ·)) with
  | some v => exact ⟨_, rfl⟩
  | none => simp only [h, Bool.false_and, Bool.false_eq_true, if_false]; exact ⟨_, rfl⟩

theorem unify_stat {o s : Srt} {es : Px} {st : Store} (hv : es.Valid st) (hs : ∀ b, es.get st = some b → b = s) (ho : evSort o = evSort s) :
    ∃ u, (Px.stat o).unify st .ev es = some u := by
  refine (C34_unify .ev st (.stat o) es trivial hv).1.2 ⟨.inl rfl, ?_⟩
  intro a b ha hb
  cases ha
  rw [hs b hb]
  exact (eqRealm_ev_iff _ _).2 ho

theorem unknown_of_typed {K : String → Option (Fun G)} {t : TF} (hu : Unknown K t) {es : Px} {s : Srt} {vm : VM} {st : Store} (h : es.get st = some s) :
    ∃ r, conv K false t es vm st = .ok r := by
  cases t with
  | var x =>
    obtain ⟨r, hr⟩ := toVar_some (k := .tmp (.var x)) (vm := vm) h
    rw [conv, hr]
    exact ⟨_, rfl⟩
  | app hd args =>
    obtain ⟨r, hr⟩ := toVar_some (k := .tmp (.app hd args)) (vm := vm) h
    have hu : K hd = none := hu
    rw [conv, hu]
    dsimp only
    rw [hr]
    exact ⟨_, rfl⟩
  | binder => exact hu.elim

theorem convs_ok {K : String → Option (Fun G)} : ∀ (args : List TF) (ss : List Srt), args.length = ss.length →
    (∀ z ∈ args.zip ss, ∀ (vm : VM) (st : Store), ∃ r, conv K false z.1 (.stat z.2) vm st = .ok r) →
    ∀ (vm : VM) (st : Store), ∃ r, convs K false args (ss.map .stat) vm st = .ok r
  | [], ss, hl, _, vm, st => by simp only [convs]; exact ⟨_, rfl⟩
  | a :: as, [], hl, _, _, _ => by cases hl
  | a :: as, s :: ss, hl, h, vm, st => by
    obtain ⟨r, hr⟩ := h (a, s) (by simp) vm st
    obtain ⟨rs, hrs⟩ := convs_ok as ss (Nat.succ.inj hl) (fun z hz => h z (by simp [hz])) r.2.1 r.2.2
    simp only [List.map_cons, convs, hr, Out.bind, hrs]
    exact ⟨_, rfl⟩

theorem conv_ok {K : String → Option (Fun G)} {t : TF} {s : Srt} (h : Typed K s t) : ∀ (es : Px) (vm : VM) (st : Store), es.Valid st →
    (es.get st = some s ∨ es.get st = none ∧ ¬ Unknown K t) → ∃ r, conv K false t es vm st = .ok r := by
  induction h with
  | unknown hu =>
    intro es vm st hv hes
    rcases hes with hes | ⟨_, hn⟩
    · exact unknown_of_typed hu hes
    · exact absurd hu hn
  | fixed hk ht hf ho hl ha ih =>
    intro es vm st hv hes
    rename_i h f args ss o s
    rw [conv, hk]
    dsimp only
    rw [if_neg (by simp [ht]), hf]
    simp only [Sg.inst, FSig.inst]
    obtain ⟨⟨s', st₁⟩, hu⟩ := unify_stat (o := o) (s := s) hv (by
      intro b hb
      rcases hes with e | ⟨e, _⟩ <;> rw [e] at hb <;> cases hb
      rfl) ho
    rw [hu]
    dsimp only
    obtain ⟨r, hr⟩ := convs_ok (K := K) args ss hl (fun z hz vm st => ih z hz (.stat z.2) vm st trivial (.inl rfl)) vm st₁
    rw [hr]
    exact ⟨_, rfl⟩
  | nary hk ht hf ho ha ih =>
    intro es vm st hv hes
    rename_i h f args s
    rw [conv, hk]
    dsimp only
    rw [if_neg (by simp [ht]), hf]
    simp only [Sg.inst, FSig.inst]
    obtain ⟨⟨s', st₁⟩, hu⟩ := unify_stat (o := .bool) (s := s) hv (by
      intro b hb
      rcases hes with e | ⟨e, _⟩ <;> rw [e] at hb <;> cases hb
      rfl) ho.symm
    rw [hu]
    dsimp only
    obtain ⟨r, hr⟩ := convs_ok (K := K) args (List.replicate args.length .bool) (by simp) (fun z hz vm st => by
      have h2 := (List.of_mem_zip hz).2
      rw [(List.mem_replicate.1 h2).2]
      exact ih z.1 (List.of_mem_zip hz).1 (.stat .bool) vm st trivial (.inl rfl)) vm st₁
    rw [List.map_replicate] at hr
    rw [hr]
    exact ⟨_, rfl⟩

/-- **C68 (what is found).** A literal that uses functions of fixed signatures and connectives as declared, around
unknown terms, gives an instance, unless it is unknown itself. -/
theorem C68_accepts {K : String → Option (Fun G)} {t : TF} {s : Srt} (h : Typed K s t) (hu : ¬ Unknown K t) :
    ∃ r, conv K false t (.var 0) [] [none] = .ok r :=
  conv_ok h (.var 0) [] [none] Nat.zero_lt_one (.inr ⟨rfl, hu⟩)

/-- **C68 (what is lost).** A literal whose head is not a known function, or an equality or disequality whose left side
is such a term, gives no instance, whatever it contains. -/
theorem C68_unknown_lost {K : String → Option (Fun G)} {u : TF} (hu : Unknown K u) :
    (conv K false u (.var 0) [] [none] = .err) ∧
    (∀ f r, K "=" = some f → f.sig = .base .eq2 → conv K false (.app "=" [u, r]) (.var 0) [] [none] = .err) ∧
    (∀ f g r, K "not" = some g → g.sig = .base (.fixed [.bool] .bool) → K "=" = some f → f.sig = .base .eq2 →
      conv K false (Lit.ne u r).toTmp (.var 0) [] [none] = .err) := by
  have key : ∀ (es : Px) (st : Store), es.get st = none → conv K false u es [] st = .err := by
    intro es st h
    cases u with
    | var x => rw [conv]; simp [toVar, h, Out.bind]
    | app hd args =>
      have hu : K hd = none := hu
      rw [conv, hu]; simp [toVar, h, Out.bind]
    | binder => exact hu.elim
  have keq : ∀ (es : Px) (st : Store) f r, K "=" = some f → f.sig = .base .eq2 → es.Valid st →
      conv K false (.app "=" [u, r]) es [] st = .err := by
    intro es st f r hf hs hv
    rw [conv, hf]
    dsimp only
    split
    · rfl
    rw [hs]
    simp only [Sg.inst, FSig.inst]
    split
    · rfl
    rename_i s st₁ h1
    have hfr := unify_frame h1
    have hn : Px.get st₁ (.var st.length) = none := by
      show (st₁[st.length]?).join = none
      rw [hfr.2 st.length (by simp) ?_]
      · simp
      · intro e; subst e; exact absurd hv (Nat.lt_irrefl _)
    simp only [convs]
    rw [key _ _ hn]
    rfl
  refine ⟨key _ _ rfl, fun f r hf hs => keq _ _ f r hf hs Nat.zero_lt_one, fun f g r hg hgs hf hs => ?_⟩
  simp only [Lit.toTmp]
  rw [conv, hg]
  dsimp only
  split
  · rfl
  rw [hgs]
  simp only [Sg.inst, FSig.inst, List.map_cons, List.map_nil]
  split
  · rfl
  · simp only [convs]
    rw [keq (.stat .bool) _ f r hf hs trivial]
    rfl

/-- **C68 (what is lost, `ite`).** An equality whose left side is an `ite` gives no instance: neither the sort of the side
nor that of the `ite` is known. -/
theorem C68_ite_lost {K : String → Option (Fun G)} {h : String} {g : Fun G} (hg : K h = some g) (hs : g.sig = .base .ite3)
    {f : Fun G} (hf : K "=" = some f) (hfs : f.sig = .base .eq2) (args : List TF) (r : TF) :
    conv K false (.app "=" [.app h args, r]) (.var 0) [] [none] = .err := by
  rw [conv, hf]
  dsimp only
  split
  · rfl
  rw [hfs]
  have key : ∀ st : Store, st[1]? = some none → conv K false (.app h args) (.var 1) [] st = .err := by
    intro st hst
    rw [conv, hg]
    dsimp only
    split
    · rfl
    rw [hs]
    have h1 : 1 < st.length := (List.getElem?_eq_some_iff.1 hst).1
    simp [Sg.inst, FSig.inst, Px.unify, Px.get, hst, List.getElem?_append_left h1]
  simp only [Sg.inst, FSig.inst, List.length_singleton]
  split
  · rfl
  rename_i s st₁ hu
  cases hu
  simp only [convs]
  rw [key _ rfl]
  rfl

/-! ### The texts -/

theorem contains_iff (w : List Char) : ∀ s, contains w s = true ↔ ∃ a b, s = a ++ w ++ b
  | [] => by
    simp only [contains, List.isPrefixOf_iff_prefix, List.prefix_nil]
    constructor
    · rintro rfl; exact ⟨[], [], rfl⟩
    · rintro ⟨a, b, h⟩
      have := congrArg List.length h
      simp only [List.length_nil, List.length_append] at this
      exact List.length_eq_zero_iff.1 (by omega)
  | c :: cs => by
    simp only [contains, Bool.or_eq_true, List.isPrefixOf_iff_prefix, contains_iff w cs]
    constructor
    · rintro (⟨b, h⟩ | ⟨a, b, rfl⟩)
      · exact ⟨[], b, h.symm⟩
      · exact ⟨c :: a, b, rfl⟩
    · rintro ⟨a, b, h⟩
      cases a with
      | nil => exact .inl ⟨b, h.symm⟩
      | cons x a =>
        simp only [List.cons_append, List.cons.injEq] at h
        exact .inr ⟨a, b, h.2⟩

/-- The pieces between the bars: they have no bar, and put together with bars they give the text. -/
theorem splitBar_spec : ∀ s, (∀ w ∈ splitBar s, '|' ∉ w) ∧ splitBar s ≠ [] ∧ ['|'].intercalate (splitBar s) = s
  | [] => by simp [splitBar, List.intercalate]
  | c :: cs => by
    obtain ⟨h1, h2, h3⟩ := splitBar_spec cs
    simp only [splitBar]
    split
    · rename_i hc
      subst hc
      refine ⟨List.forall_mem_cons.2 ⟨by simp, h1⟩, by simp, ?_⟩
      cases hs : splitBar cs with
      | nil => exact absurd hs h2
      | cons w ws =>
        rw [hs] at h3
        rw [← h3]
        simp [List.intercalate, List.intersperse]
    · rename_i hc
      cases hs : splitBar cs with
      | nil => exact absurd hs h2
      | cons w ws =>
        rw [hs] at h1 h3
        dsimp only
        obtain ⟨h4, h5⟩ := List.forall_mem_cons.1 h1
        refine ⟨List.forall_mem_cons.2 ⟨by simp [h4, Ne.symm hc], h5⟩, by simp, ?_⟩
        rw [← h3]
        cases ws <;> simp [List.intercalate, List.intersperse]

/-- **C68 (the search).** The instances are exactly what the literals of the clauses give: the pieces of a clause between
the bars that mention one of the names and that can be read and converted. -/
theorem C68_search (K : String → Option (Fun G)) (names : List (List Char)) (parse : List Char → Option Lit)
    (clauses : List (List Char)) (φ : Fm G) : φ ∈ searchInstances K names parse clauses ↔
      ∃ c ∈ clauses, ∃ s ∈ splitBar c, (∃ w ∈ names, ∃ a b, s = a ++ w ++ b) ∧
        ∃ l, parse s = some l ∧ ∃ r, conv K false l.toTmp (.var 0) [] [none] = .ok r ∧ r.1 = φ := by
  simp only [searchInstances, List.mem_filterMap, List.mem_flatMap]
  constructor
  · rintro ⟨s, ⟨c, hc, hs⟩, h⟩
    unfold instanceOf at h
    split at h
    · rename_i hn
      obtain ⟨w, hw, hc'⟩ := List.any_eq_true.1 hn
      split at h
      · rename_i l hl
        split at h
        · rename_i r hr
          cases h
          exact ⟨c, hc, s, hs, ⟨w, hw, (contains_iff w s).1 hc'⟩, l, hl, r, hr, rfl⟩
        · cases h
      · cases h
    · cases h
  · rintro ⟨c, hc, s, hs, ⟨w, hw, hab⟩, l, hl, r, hr, rfl⟩
    refine ⟨s, ⟨c, hc, hs⟩, ?_⟩
    unfold instanceOf
    rw [if_pos (List.any_eq_true.2 ⟨w, hw, (contains_iff w s).2 hab⟩), hl]
    simp only [hr]

end Disc
end CV
