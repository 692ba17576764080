import Verif.Rc.Bounds
import Verif.Arc.Proofs.BoundCount
import Verif.Rc.Proofs.Unwind
/-!
# How much memory and stack `RcSlice`s need: proofs
-/

namespace Verif.Rc
open Verif.Spec (Side Slot Family Rng World Op Obs End)
open Verif.Arc (Proper most proper_count)
variable {α : Type}

theorem okb {β γ : Type} {x : Except UB β} {f : β → Except UB γ} {r : γ} (h : (x >>= f) = .ok r) : ∃ y, x = .ok y ∧ f y = .ok r := by
  cases x with
  | error e => cases h
  | ok y => exact ⟨y, rfl, h⟩

/-- The label of a subslice that differs from those it was cut from. -/
def OKL (k : Skel) (l : Lab) : Prop := l.fam < k.nfam ∧ Proper (k.fams l.fam).rng l.path

/-- All labels so far. -/
def PH (k : Skel) : Prop := ∀ x, x < k.next → k.kind x ≠ .alloc → OKL k (k.lab x)

/-- What may be added. -/
structure Ev0 (k k' : Skel) : Prop where
  next : k.next ≤ k'.next
  lab : ∀ x, x < k.next → k'.lab x = k.lab x
  kind : ∀ x, x < k.next → k'.kind x = k.kind x
  nfam : k.nfam ≤ k'.nfam
  fams : ∀ f, f < k.nfam → k'.fams f = k.fams f
  new : ∀ x, k.next ≤ x → x < k'.next → k'.kind x ≠ .alloc → OKL k' (k'.lab x)

section
variable {k k' k'' : Skel}

theorem Ev0.okl (e : Ev0 k k') {l : Lab} (h : OKL k l) : OKL k' l := ⟨Nat.lt_of_lt_of_le h.1 e.nfam, by rw [e.fams _ h.1]; exact h.2⟩

theorem Ev0.refl (k : Skel) : Ev0 k k := ⟨Nat.le_refl _, fun _ _ => rfl, fun _ _ => rfl, Nat.le_refl _, fun _ _ => rfl, fun _ h h' => absurd h' (Nat.not_lt.2 h)⟩

theorem Ev0.of_eq (e : k' = k) : Ev0 k k' := e ▸ .refl _

theorem Ev0.trans (e1 : Ev0 k k') (e2 : Ev0 k' k'') : Ev0 k k'' where
  next := Nat.le_trans e1.next e2.next
  lab x h := (e2.lab x (Nat.lt_of_lt_of_le h e1.next)).trans (e1.lab x h)
  kind x h := (e2.kind x (Nat.lt_of_lt_of_le h e1.next)).trans (e1.kind x h)
  nfam := Nat.le_trans e1.nfam e2.nfam
  fams f h := (e2.fams f (Nat.lt_of_lt_of_le h e1.nfam)).trans (e1.fams f h)
  new x h h' hk := by
    by_cases hx : x < k'.next
    · rw [e2.kind x hx] at hk
      rw [e2.lab x hx]
      exact e2.okl (e1.new x h hx hk)
    · exact e2.new x (Nat.not_lt.1 hx) h' hk

theorem Ev0.same (h1 : k'.next = k.next) (h2 : k'.lab = k.lab) (h3 : k'.kind = k.kind) (h4 : k'.nfam = k.nfam) (h5 : k'.fams = k.fams) : Ev0 k k' :=
  ⟨Nat.le_of_eq h1.symm, fun _ _ => by rw [h2], fun _ _ => by rw [h3], Nat.le_of_eq h4.symm, fun _ _ => by rw [h5], fun _ h h' => by omega⟩

theorem Ev0.node {f : Nat → Option Node} : Ev0 k { k with node := f } :=
  ⟨Nat.le_refl _, fun _ _ => rfl, fun _ _ => rfl, Nat.le_refl _, fun _ _ => rfl, fun _ h h' => absurd h' (Nat.not_lt.2 h)⟩

theorem Ev0.add {h : Heap α} {n : Node} {l : Lab} (hl : n.kind ≠ .alloc → OKL h.sk l) : Ev0 h.sk (h.rcNew n l).1.sk where
  next := Nat.le_succ _
  lab x hx := upd_ne _ _ (Nat.ne_of_lt hx)
  kind x hx := upd_ne _ _ (Nat.ne_of_lt hx)
  nfam := Nat.le_refl _
  fams _ _ := rfl
  new x h1 h2 h3 := by
    have h2 : x < h.sk.next + 1 := h2
    have : x = h.sk.next := by omega
    subst this
    have h3 : upd h.sk.kind h.sk.next n.kind h.sk.next ≠ .alloc := h3
    rw [upd_same] at h3
    show OKL _ (upd h.sk.lab h.sk.next l h.sk.next)
    rw [upd_same]
    exact hl h3

theorem Ev0.fam {h : Heap α} {F : Family} : Ev0 h.sk (newFam h F).1.sk where
  next := Nat.le_refl _
  lab _ _ := rfl
  kind _ _ := rfl
  nfam := Nat.le_succ _
  fams _ hf := upd_ne _ _ (Nat.ne_of_lt hf)
  new _ h h' := absurd h' (Nat.not_lt.2 h)

/-- Slice data is made once for each subslice: as long as the one it would be made from is there, it refers to what has been made. -/
structure HU (k : Skel) : Prop where
  fresh : ∀ q v, k.node q = some (.data v) → q < k.next ∧ k.kind q = .data
  fam : ∀ x, x < k.next → k.kind x = .data → (k.lab x).fam < k.nfam
  down : ∀ x, x < k.next → k.kind x = .data → ∀ q v s, k.node q = some (.data v) → ((k.lab q).child s).up (k.lab x) → (v.kids s).isSome = true
  uniq : ∀ x y, x < k.next → y < k.next → k.kind x = .data → k.kind y = .data → k.lab x = k.lab y → x = y

theorem HU.mono (H : HU k) (e : Ev0 k k') (da : ∀ x, x < k'.next → k'.kind x = .data → x < k.next)
    (nd : ∀ q v', k'.node q = some (.data v') → ∃ v, k.node q = some (.data v) ∧ ∀ s, (v.kids s).isSome = true → (v'.kids s).isSome = true) : HU k' where
  fresh q v' h := by
    obtain ⟨v, h1, _⟩ := nd q v' h
    obtain ⟨h2, h3⟩ := H.fresh q v h1
    exact ⟨Nat.lt_of_lt_of_le h2 e.next, (e.kind q h2).trans h3⟩
  fam x hx hk := by
    have h1 := da x hx hk
    rw [e.kind x h1] at hk
    rw [e.lab x h1]
    exact Nat.lt_of_lt_of_le (H.fam x h1 hk) e.nfam
  down x hx hk q v' s hq hu := by
    have h1 := da x hx hk
    rw [e.kind x h1] at hk
    obtain ⟨v, h2, h3⟩ := nd q v' hq
    rw [e.lab x h1, e.lab q (H.fresh q v h2).1] at hu
    exact h3 s (H.down x h1 hk q v s h2 hu)
  uniq x y hx hy kx ky hl := by
    have h1 := da x hx kx
    have h2 := da y hy ky
    rw [e.kind x h1] at kx
    rw [e.kind y h2] at ky
    rw [e.lab x h1, e.lab y h2] at hl
    exact H.uniq x y h1 h2 kx ky hl

/-- What may happen in a step. -/
structure Ev (k k' : Skel) : Prop extends Ev0 k k' where
  hist : HU k → HU k'

theorem Ev.okl (e : Ev k k') {l : Lab} (h : OKL k l) : OKL k' l := e.toEv0.okl h
theorem Ev.refl (k : Skel) : Ev k k := ⟨.refl k, id⟩
theorem Ev.of_eq (e : k' = k) : Ev k k' := e ▸ .refl _
theorem Ev.trans (e1 : Ev k k') (e2 : Ev k' k'') : Ev k k'' := ⟨e1.toEv0.trans e2.toEv0, e2.hist ∘ e1.hist⟩

theorem Ev.same (h1 : k'.next = k.next) (h2 : k'.lab = k.lab) (h3 : k'.kind = k.kind) (h4 : k'.nfam = k.nfam) (h5 : k'.fams = k.fams) (h6 : k'.node = k.node) :
    Ev k k' :=
  have e := Ev0.same h1 h2 h3 h4 h5
  ⟨e, fun H => H.mono e (fun x hx _ => by omega) fun q v h => ⟨v, by rw [← h6]; exact h, fun _ => id⟩⟩

theorem Ev.node {x : Nat} {n : Node} (hn : n.kind ≠ .data) : Ev k { k with node := upd k.node x (some n) } :=
  ⟨.node, fun H => H.mono .node (fun x hx _ => hx) fun q v h => by
    by_cases hq : q = x
    · subst hq
      replace h := (upd_same k.node q (some n)).symm.trans h
      cases h; exact absurd rfl hn
    · replace h := (upd_ne k.node (some n) hq).symm.trans h
      exact ⟨v, h, fun _ => id⟩⟩

theorem PH.next (h : PH k) (e : Ev k k') : PH k' := fun x hx hk => by
  by_cases h1 : x < k.next
  · rw [e.kind x h1] at hk
    rw [e.lab x h1]
    exact e.okl (h x h1 hk)
  · exact e.new x (Nat.not_lt.1 h1) hx hk

theorem Ev.add {h : Heap α} {n : Node} {l : Lab} (hl : n.kind ≠ .alloc → OKL h.sk l) (hn : n.kind ≠ .data) : Ev h.sk (h.rcNew n l).1.sk :=
  ⟨.add hl, fun H => H.mono (.add hl) (fun x hx hk => by
      have hx : x < h.sk.next + 1 := hx
      by_cases hq : x = h.sk.next
      · subst hq
        rw [show (h.rcNew n l).1.sk.kind h.sk.next = n.kind from upd_same _ _ _] at hk
        exact absurd hk hn
      · omega) fun q v hq => by
    by_cases he : q = h.sk.next
    · subst he
      rw [show (h.rcNew n l).1.sk.node h.sk.next = some n from upd_same _ _ _] at hq
      cases hq; exact absurd rfl hn
    · rw [show (h.rcNew n l).1.sk.node q = h.sk.node q from upd_ne _ _ he] at hq
      exact ⟨v, hq, fun _ => id⟩⟩

theorem Ev.fam {h : Heap α} {F : Family} : Ev h.sk (newFam h F).1.sk :=
  ⟨.fam, fun H => H.mono .fam (fun _ hx _ => hx) fun _ v hq => ⟨v, hq, fun _ => id⟩⟩

theorem okl_root {h : Heap α} {F : Family} : OKL (newFam h F).1.sk ⟨h.sk.nfam, []⟩ := ⟨Nat.lt_succ_self _, trivial⟩

/-- The first slice data of a new slice. -/
theorem Ev.root {h : Heap α} {F : Family} {v : DataV} :
    Ev h.sk ((newFam h F).1.rcNew (.data v) ⟨h.sk.nfam, []⟩).1.sk := by
  refine ⟨.trans .fam (.add (h := (newFam h F).1) fun _ => okl_root), fun H => ?_⟩
  have nx : ((newFam h F).1.rcNew (.data v) ⟨h.sk.nfam, []⟩).1.sk.next = h.sk.next + 1 := rfl
  have l1 : ((newFam h F).1.rcNew (.data v) ⟨h.sk.nfam, []⟩).1.sk.lab h.sk.next = ⟨h.sk.nfam, []⟩ := upd_same _ _ _
  have l2 : ∀ {x}, x ≠ h.sk.next → ((newFam h F).1.rcNew (.data v) ⟨h.sk.nfam, []⟩).1.sk.lab x = h.sk.lab x := fun hx => upd_ne _ _ hx
  have k1 : ((newFam h F).1.rcNew (.data v) ⟨h.sk.nfam, []⟩).1.sk.kind h.sk.next = .data := upd_same _ _ _
  have k2 : ∀ {x}, x ≠ h.sk.next → ((newFam h F).1.rcNew (.data v) ⟨h.sk.nfam, []⟩).1.sk.kind x = h.sk.kind x := fun hx => upd_ne _ _ hx
  have n2 : ∀ {x}, x ≠ h.sk.next → ((newFam h F).1.rcNew (.data v) ⟨h.sk.nfam, []⟩).1.sk.node x = h.sk.node x := fun hx => upd_ne _ _ hx
  have nf : ((newFam h F).1.rcNew (.data v) ⟨h.sk.nfam, []⟩).1.sk.nfam = h.sk.nfam + 1 := rfl
  generalize ((newFam h F).1.rcNew (.data v) ⟨h.sk.nfam, []⟩).1.sk = k' at *
  have old : ∀ {x}, x < k'.next → x ≠ h.sk.next → x < h.sk.next := fun h1 h2 => by omega
  constructor
  · intro q w hq
    by_cases he : q = h.sk.next
    · subst he; exact ⟨by omega, k1⟩
    · rw [n2 he] at hq
      have := H.fresh q w hq
      exact ⟨by omega, by rw [k2 he]; exact this.2⟩
  · intro x hx hk
    by_cases he : x = h.sk.next
    · subst he; rw [l1, nf]; exact Nat.lt_succ_self _
    · rw [k2 he] at hk
      rw [l2 he, nf]
      exact Nat.lt_succ_of_lt (H.fam x (old hx he) hk)
  · intro x hx hk q w s hq hu
    by_cases he : x = h.sk.next
    · subst he
      rw [l1] at hu
      have := hu.2.length_le
      simp [Lab.child] at this
    · rw [k2 he] at hk
      rw [l2 he] at hu
      by_cases hf : q = h.sk.next
      · subst hf
        rw [l1] at hu
        have h1 : h.sk.nfam = (h.sk.lab x).fam := hu.1
        have := H.fam x (old hx he) hk
        omega
      · rw [l2 hf] at hu
        rw [n2 hf] at hq
        exact H.down x (old hx he) hk q w s hq hu
  · intro x y hx hy kx ky hl
    by_cases he : x = h.sk.next <;> by_cases hf : y = h.sk.next
    · omega
    · subst he
      rw [l1, l2 hf] at hl
      rw [k2 hf] at ky
      have := H.fam y (old hy hf) ky
      rw [← hl] at this
      exact absurd this (Nat.lt_irrefl _)
    · subst hf
      rw [l1, l2 he] at hl
      rw [k2 he] at kx
      have := H.fam x (old hx he) kx
      rw [hl] at this
      exact absurd this (Nat.lt_irrefl _)
    · rw [l2 he, l2 hf] at hl
      rw [k2 he] at kx
      rw [k2 hf] at ky
      exact H.uniq x y (old hx he) (old hy hf) kx ky hl

/-- Slice data for a half. -/
theorem Ev.child {h : Heap α} {d : Nat} {s : Side} {v w : DataV} (hd : h.sk.node d = some (.data v)) (hs : v.kids s = none)
    (hl : OKL h.sk ((h.sk.lab d).child s)) :
    Ev h.sk (((h.rcNew (.data w) ((h.sk.lab d).child s)).1.setNode d (.data (v.setKid s h.sk.next))).sk) := by
  refine ⟨.trans (.add (h := h) fun _ => hl) .node, fun H => ?_⟩
  obtain ⟨dlt, dk⟩ := H.fresh d v hd
  have dne : d ≠ h.sk.next := by omega
  have none' : ∀ x, x < h.sk.next → h.sk.kind x = .data → ¬ ((h.sk.lab d).child s).up (h.sk.lab x) := fun x hx hk hu => by
    have := H.down x hx hk d v s hd hu
    rw [hs] at this; cases this
  generalize hk' : (((h.rcNew (.data w) ((h.sk.lab d).child s)).1.setNode d (.data (v.setKid s h.sk.next))).sk) = k'
  have nx : k'.next = h.sk.next + 1 := by rw [← hk']; rfl
  have l1 : k'.lab h.sk.next = (h.sk.lab d).child s := by rw [← hk']; exact upd_same _ _ _
  have l2 : ∀ {x}, x ≠ h.sk.next → k'.lab x = h.sk.lab x := fun hx => by rw [← hk']; exact upd_ne _ _ hx
  have k1 : k'.kind h.sk.next = .data := by rw [← hk']; exact upd_same _ _ _
  have k2 : ∀ {x}, x ≠ h.sk.next → k'.kind x = h.sk.kind x := fun hx => by rw [← hk']; exact upd_ne _ _ hx
  have n0 : k'.node d = some (.data (v.setKid s h.sk.next)) := by rw [← hk']; exact upd_same _ _ _
  have n2 : ∀ {x}, x ≠ h.sk.next → x ≠ d → k'.node x = h.sk.node x := fun hx hx' => by
    rw [← hk']; exact (upd_ne _ _ hx').trans (upd_ne _ _ hx)
  have nf : k'.nfam = h.sk.nfam := by rw [← hk']; rfl
  have old : ∀ {x}, x < k'.next → x ≠ h.sk.next → x < h.sk.next := fun h1 h2 => by omega
  constructor
  · intro q u hq
    by_cases he : q = h.sk.next
    · subst he; exact ⟨by omega, k1⟩
    · by_cases hf : q = d
      · subst hf; exact ⟨by omega, by rw [k2 he]; exact dk⟩
      · rw [n2 he hf] at hq
        have := H.fresh q u hq
        exact ⟨by omega, by rw [k2 he]; exact this.2⟩
  · intro x hx hk
    by_cases he : x = h.sk.next
    · subst he; rw [l1, nf]; exact H.fam d dlt dk
    · rw [k2 he] at hk
      rw [l2 he, nf]
      exact H.fam x (old hx he) hk
  · intro x hx hk q u s' hq hu
    by_cases he : x = h.sk.next
    · subst he
      rw [l1] at hu
      by_cases hf : q = h.sk.next
      · subst hf
        rw [l1] at hu
        have := hu.2.length_le
        simp only [Lab.child, List.length_cons] at this
        omega
      · rw [l2 hf] at hu
        have hsuf := List.suffix_cons_iff.1 (show s' :: (h.sk.lab q).path <:+ s :: (h.sk.lab d).path from hu.2)
        have hfam : (h.sk.lab q).fam = (h.sk.lab d).fam := hu.1
        rcases hsuf with h1 | h1
        · have h1 := List.cons.inj h1
          have : h.sk.lab q = h.sk.lab d := by
            have : ∀ {l m : Lab}, l.fam = m.fam → l.path = m.path → l = m := fun {l m} a b => by cases l; cases m; simp_all
            exact this hfam h1.2
          have qd : q = d := by
            by_cases hf' : q = d
            · exact hf'
            · rw [n2 hf hf'] at hq
              obtain ⟨a, b⟩ := H.fresh q u hq
              exact H.uniq q d a dlt b dk this
          subst qd
          rw [n0] at hq
          cases hq
          rw [h1.1]
          simp [DataV.setKid]
        · by_cases hf' : q = d
          · subst hf'
            have := h1.length_le
            simp at this
            omega
          · rw [n2 hf hf'] at hq
            exact H.down d dlt dk q u s' hq ⟨hfam, h1⟩
    · rw [k2 he] at hk
      rw [l2 he] at hu
      by_cases hf : q = h.sk.next
      · subst hf
        rw [l1] at hu
        exact absurd ⟨hu.1, (List.suffix_cons _ _).trans hu.2⟩ (none' x (old hx he) hk)
      · rw [l2 hf] at hu
        by_cases hf' : q = d
        · subst hf'
          rw [n0] at hq
          cases hq
          have := H.down x (old hx he) hk q v s' hd hu
          simp only [DataV.setKid]
          split
          · rfl
          · exact this
        · rw [n2 hf hf'] at hq
          exact H.down x (old hx he) hk q u s' hq hu
  · intro x y hx hy kx ky hl
    have up : ∀ {l m : Lab}, l = m → l.up m := fun e => e ▸ ⟨rfl, List.suffix_refl _⟩
    by_cases he : x = h.sk.next <;> by_cases hf : y = h.sk.next
    · omega
    · subst he
      rw [l1, l2 hf] at hl
      rw [k2 hf] at ky
      exact absurd (up hl) (none' y (old hy hf) ky)
    · subst hf
      rw [l1, l2 he] at hl
      rw [k2 he] at kx
      exact absurd (up hl.symm) (none' x (old hx he) kx)
    · rw [l2 he, l2 hf] at hl
      rw [k2 he] at kx
      rw [k2 hf] at ky
      exact H.uniq x y (old hx he) (old hy hf) kx ky hl

end

/-! ## The functions of the code -/

section
variable {h h' : Heap α}

theorem incS_k {x : Nat} (e : h.incS x = .ok h') : h'.sk = h.sk := by
  simp only [Heap.incS] at e; split at e <;> cases e; rfl
theorem incSOpt_k {o : Option Nat} (e : h.incSOpt o = .ok h') : h'.sk = h.sk := by
  cases o with
  | none => cases e; rfl
  | some x => exact incS_k e
theorem incW_k {x : Nat} (e : h.incW x = .ok h') : h'.sk = h.sk := by
  simp only [Heap.incW] at e; split at e <;> cases e; rfl
theorem cloneW_k {o : Option Nat} (e : h.cloneW o = .ok h') : h'.sk = h.sk := by
  cases o with
  | none => cases e; rfl
  | some x => simp only [Heap.cloneW] at e; split at e <;> cases e; rfl
theorem decW_k {o : Option Nat} (e : h.decW o = .ok h') : h'.sk = h.sk := by
  cases o with
  | none => cases e; rfl
  | some x => simp only [Heap.decW] at e; split at e <;> cases e; rfl
theorem decShared_k {x : Nat} (e : h.decShared x = .ok h') : h'.sk = h.sk := by
  simp only [Heap.decShared] at e
  split at e
  · cases e
  · split at e <;> cases e; rfl
theorem decSharedOpt_k {o : Option Nat} (e : h.decSharedOpt o = .ok h') : h'.sk = h.sk := by
  cases o with
  | none => cases e; rfl
  | some x => exact decShared_k e
theorem upgrade_k {o : Option Nat} {c : Nat} (e : h.upgrade o = .ok (some (h', c))) : h'.sk = h.sk := by
  cases o with
  | none => cases e
  | some x =>
    simp only [Heap.upgrade] at e
    split at e
    · cases e
    · split at e <;> cases e; rfl
theorem splitAlloc_k {o a b : Option Nat} {n m : Nat} (e : splitAlloc h o n m = .ok (h', a, b)) : h'.sk = h.sk := by
  simp only [splitAlloc] at e
  split at e
  · cases e; rfl
  · split at e
    · obtain ⟨h1, e1, e⟩ := okb e
      cases e
      exact incSOpt_k e1
    · cases e; rfl

theorem dataCloneChild_ev {d c : Nat} {s : Side} (hl : OKL h.sk ((h.sk.lab d).child s)) (e : dataCloneChild h d s = .ok (h', c)) : Ev h.sk h'.sk := by
  obtain ⟨v, e0, e⟩ := okb e
  split at e
  · next hs =>
    obtain ⟨h1, e1, e⟩ := okb e
    have k1 := incSOpt_k e1
    obtain ⟨h2, e2, e⟩ := okb e
    have k2 := incS_k e2
    cases e
    have hd' : h1.sk.node d = some (.data v) := by
      rw [k1]
      simp only [Heap.getData] at e0
      split at e0 <;> cases e0
      assumption
    have kk := Ev.child (h := h1) (w := ⟨v.buf, v.subOff s, v.subLen s, if v.subLen s = 0 then none else v.alloc, noKids⟩) hd' hs (by rw [k1]; exact hl)
    refine .trans (.of_eq k1) ?_
    show Ev h1.sk { h2.sk with node := upd h2.sk.node d (some (.data (v.setKid s h1.sk.next))) }
    rw [k2]
    exact kk
  · obtain ⟨h1, e1, e⟩ := okb e
    cases e
    exact .of_eq (incS_k e1)

theorem gmgCloneChild_ev {g c : Nat} {s : Side} (hl : OKL h.sk ((h.sk.lab g).child s)) (e : gmgCloneChild h g s = .ok (h', c)) : Ev h.sk h'.sk := by
  obtain ⟨v, _, e⟩ := okb e
  obtain ⟨o, e0, e⟩ := okb e
  cases o with
  | some r =>
    cases e
    exact .of_eq (upgrade_k e0)
  | none =>
    obtain ⟨h1, e1, e⟩ := okb e
    have k1 := incS_k e1
    obtain ⟨h2, e2, e⟩ := okb e
    have k2 := incW_k e2
    obtain ⟨h3, e3, e⟩ := okb e
    have k3 := decW_k e3
    cases e
    refine .trans (.of_eq k1) (.trans (.add (h := h1) (fun _ => ?_) (by simp [Node.kind])) (.trans (.of_eq k2) (.trans (.of_eq k3) (.node (by simp [Node.kind])))))
    rw [k1]; exact hl

theorem imgCloneChild_ev {i c : Nat} {s : Side} (hi : i < h.sk.next) (hg : ∀ v, h.sk.node i = some (.img v) → h.sk.lab v.gmg = h.sk.lab i)
    (hl : OKL h.sk ((h.sk.lab i).child s)) (e : imgCloneChild h i s = .ok (h', c)) : Ev h.sk h'.sk := by
  obtain ⟨v, e0, e⟩ := okb e
  have hv : h.sk.node i = some (.img v) := by
    simp only [Heap.getImg] at e0
    split at e0 <;> cases e0
    assumption
  obtain ⟨o, e00, e⟩ := okb e
  cases o with
  | some r =>
    cases e
    exact .of_eq (upgrade_k e00)
  | none =>
    obtain ⟨⟨h1, gc⟩, e1, e⟩ := okb e
    have k1 := gmgCloneChild_ev (by rw [hg v hv]; exact hl) e1
    obtain ⟨h2, e2, e⟩ := okb e
    have k2 := incS_k e2
    obtain ⟨vg, _, e⟩ := okb e
    obtain ⟨h3, e3, e⟩ := okb e
    have k3 := incW_k e3
    obtain ⟨h4, e4, e⟩ := okb e
    have k4 := decW_k e4
    obtain ⟨h5, e5, e⟩ := okb e
    have k5 := incW_k e5
    obtain ⟨h6, e6, e⟩ := okb e
    have k6 := decW_k e6
    cases e
    refine .trans k1 (.trans (.of_eq k2) (.trans (.add (h := h2) (fun _ => ?_) (by simp [Node.kind])) (.trans (.of_eq k3) (.trans (.of_eq k4) (.trans (.node (by simp [Node.kind]))
      (.trans (.of_eq k5) (.trans (.of_eq k6) (.node (by simp [Node.kind])))))))))
    rw [k2, k1.lab i hi]
    exact k1.okl hl

theorem ensureImg_ev : ∀ (fuel : Nat) {h h' : Heap α} {S W : List Nat} {G : List Span}, Good h S W G → PH h.sk → ∀ {x c : Nat} {v : GmgV},
    h.sk.node x = some (.gmg v) → x < fuel → ensureImg fuel h x = .ok (h', c) → Ev h.sk h'.sk := by
  intro fuel
  induction fuel with
  | zero => intro h h' S W G g hp x c v hx hf; omega
  | succ fuel ih =>
    intro h h' S W G g hp x c v hx hf e
    have hlt := g.ledger.lt hx
    have okx := hp x hlt (by rw [g.shape.kinds _ _ hx]; simp [Node.kind])
    obtain ⟨v', e0, e⟩ := okb e
    have : v' = v := by
      simp only [Heap.getGmg, hx] at e0
      cases e0; rfl
    subst this
    obtain ⟨o, e00, e⟩ := okb e
    cases o with
    | some r =>
      cases e
      exact .of_eq (upgrade_k e00)
    | none =>
      cases hpar : v'.parent with
      | some ps =>
        obtain ⟨p, s⟩ := ps
        rw [hpar] at e
        obtain ⟨⟨h1, i⟩, e1, e⟩ := okb e
        obtain ⟨h2lt, h2lab, vp, h2n⟩ := g.shape.gmgPar x v' p s hx hpar
        obtain ⟨h1', i', e1', g1, s1, l1, vc, n1⟩ := ensureImg_ok fuel g h2n (by omega)
        rw [e1] at e1'
        cases e1'
        have k1 := ih g hp h2n (by omega) e1
        obtain ⟨⟨h2, c2⟩, e2, e⟩ := okb e
        have k2 := imgCloneChild_ev (g1.ledger.lt n1) (fun v hv => (g1.shape.imgGmg _ v hv).1) (by rw [l1, ← h2lab]; exact k1.okl okx) e2
        obtain ⟨h3, e3, e⟩ := okb e
        have k3 := decShared_k e3
        cases e
        exact .trans k1 (.trans k2 (.of_eq k3))
      | none =>
        rw [hpar] at e
        obtain ⟨h1, e1, e⟩ := okb e
        have k1 := incS_k e1
        obtain ⟨h2, e2, e⟩ := okb e
        have k2 := incW_k e2
        obtain ⟨h3, e3, e⟩ := okb e
        have k3 := decW_k e3
        cases e
        refine .trans (.of_eq k1) (.trans (.add (h := h1) (fun _ => ?_) (by simp [Node.kind])) (.trans (.of_eq k2) (.trans (.of_eq k3) (.node (by simp [Node.kind])))))
        rw [k1]; exact okx

theorem rcFromParts_ev {r : Reg} {d i : Nat} (e : rcFromParts h r = .ok (h', d, i)) : Ev h.sk h'.sk := by
  obtain ⟨⟨h1, i1⟩, e1, e⟩ := okb e
  cases e
  simp only [imgNew] at e1
  obtain ⟨h2, e2, e1⟩ := okb e1
  have k2 := incW_k e2
  cases e1
  have k1 := Ev.root (h := h) (F := ⟨r.buf, ⟨r.off, r.len⟩, r.alloc.isSome⟩) (v := ⟨r.buf, r.off, r.len, r.alloc, noKids⟩)
  have o1 := (Ev0.add (h := (newFam h ⟨r.buf, ⟨r.off, r.len⟩, r.alloc.isSome⟩).1) (n := .data ⟨r.buf, r.off, r.len, r.alloc, noKids⟩) fun _ => okl_root).okl okl_root
  have k3 := Ev.add (n := .gmg ⟨none, noKids, none⟩) (fun _ => o1) nofun
  have o3 := k3.okl o1
  have k4 := Ev.add (n := .img ⟨none, noKids, h.sk.next + 1⟩) (fun _ => o3) nofun
  exact .trans k1 (.trans k3 (.trans k4 (.trans (.of_eq k2) (.node (by simp [Node.kind])))))

theorem rcClone_k {d i : Nat} (e : rcClone h d i = .ok h') : h'.sk = h.sk := by
  obtain ⟨h1, e1, e⟩ := okb e
  exact (incS_k e).trans (incS_k e1)

theorem rcCloneSide_ev {T : List Tok} {d i c j : Nat} {s : Side} (I : Inv h T) (hp : PH h.sk) (ht : .strong d i ∈ T)
    (e : rcCloneSide h d i s = .ok (h', c, j)) : Ev h.sk h'.sk := by
  obtain ⟨v, vi, hd, hi, hl⟩ := I.strong_live ht
  obtain ⟨v', e0, e⟩ := okb e
  rw [getData_ok hd] at e0
  cases e0
  split at e
  · obtain ⟨h1, e1, e⟩ := okb e
    cases e
    exact .of_eq (rcClone_k e1)
  · next hs =>
    have ok : OKL h.sk ((h.sk.lab d).child s) := by
      obtain ⟨a, b⟩ := hp d (I.good.ledger.lt hd) (by rw [I.good.shape.kinds _ _ hd]; simp [Node.kind])
      refine ⟨a, b, ?_⟩
      have := (I.good.shape.dataFam d v hd).2.1
      show ¬ sameNode ((h.sk.fams (h.sk.lab d).fam).rng.at (h.sk.lab d).path).len s = true
      rw [← this]; exact hs
    obtain ⟨⟨h1, c1⟩, e1, e⟩ := okb e
    obtain ⟨⟨h2, j2⟩, e2, e⟩ := okb e
    cases e
    have k1 := dataCloneChild_ev ok e1
    obtain ⟨h1', c', e1', g1, s1, l1, vc, n1⟩ := dataCloneChild_ok I.good hd s
    rw [e1] at e1'
    cases e1'
    have hlt := I.good.ledger.lt hi
    refine .trans k1 (imgCloneChild_ev (Nat.lt_of_lt_of_le hlt k1.next) (fun v hv => (g1.shape.imgGmg _ v hv).1) ?_ e2)
    rw [k1.lab i hlt, ← hl]
    exact k1.okl ok

theorem kill_ev {x : Nat} : Ev h.sk (h.kill x).sk :=
  have e : Ev0 h.sk (h.kill x).sk := .same rfl rfl rfl rfl rfl
  ⟨e, fun H => H.mono e (fun _ hx _ => hx) fun _ v hq => ⟨v, (upd_none_some hq).2, fun _ => id⟩⟩

theorem forgetKid_ev {f : Heap α → DataV → Except UB (Heap α)} (hf : ∀ {h h' : Heap α} {v : DataV}, f h v = .ok h' → Ev h.sk h'.sk) {o : Option Nat}
    (e : forgetKid f h o = .ok h') : Ev h.sk h'.sk := by
  cases o with
  | none => cases e; exact .refl _
  | some c =>
    simp only [forgetKid] at e
    split at e
    · obtain ⟨v, _, e⟩ := okb e
      obtain ⟨h1, e1, e⟩ := okb e
      exact kill_ev.trans (.trans (hf e1) (.of_eq (decSharedOpt_k e)))
    · exact .of_eq (decShared_k e)

theorem forgetItems_ev : ∀ (fuel : Nat) {h h' : Heap α} {v : DataV}, forgetItems fuel h v = .ok h' → Ev h.sk h'.sk := by
  intro fuel
  induction fuel with
  | zero => intro h h' v e; cases e
  | succ fuel ih =>
    intro h h' v e
    obtain ⟨h1, e1, e⟩ := okb e
    exact .trans (forgetKid_ev ih e1) (forgetKid_ev ih e)

theorem intoMut_ev {d i : Nat} {o : Option (Reg × List Task)} (e : intoMut h d i = .ok (h', o)) : Ev h.sk h'.sk := by
  simp only [intoMut] at e
  split at e
  · cases e
  · split at e
    · split at e
      · obtain ⟨v, _, e⟩ := okb e
        obtain ⟨h1, e1, e⟩ := okb e
        cases e
        exact kill_ev.trans (forgetItems_ev _ e1)
      · cases e; exact .refl _
    · cases e; exact .refl _

theorem newBuf_ev {xs : List α} : Ev h.sk (newBuf h xs).1.sk := .same rfl rfl rfl rfl rfl rfl

theorem mutFromBox_ev {xs : List α} {r : Reg} (e : mutFromBox h xs = (h', r)) : Ev h.sk h'.sk := by
  simp only [mutFromBox] at e
  split at e <;> cases e
  · exact newBuf_ev
  · exact .trans newBuf_ev (.add (h := (newBuf h xs).1) (fun h => absurd rfl h) (by simp [Node.kind]))

theorem rcFromBox_ev {xs : List α} {d i : Nat} (e : rcFromBox h xs = .ok (h', d, i)) : Ev h.sk h'.sk := by
  simp only [rcFromBox] at e
  split at e
  · exact .trans newBuf_ev (rcFromParts_ev e)
  · exact .trans newBuf_ev (.trans (.add (h := (newBuf h xs).1) (fun h => absurd rfl h) (by simp [Node.kind])) (rcFromParts_ev e))

theorem upgradeWeak_ev {T : List Tok} {o : Option Nat} {g : Nat} {r : Option (Nat × Nat)} (I : Inv h T) (hp : PH h.sk) (ht : .weak o g ∈ T)
    (e : upgradeWeak h o g = .ok (h', r)) : Ev h.sk h'.sk := by
  obtain ⟨q, e0, e⟩ := okb e
  rcases I.good.upgrade (o := o) (fun x hx => I.good.ledger.wpos_of_tok (mem_Ws ht (by simp [Tok.W, hx]))) with
    ⟨e1, hn⟩ | ⟨h1, x, n, rfl, e1, g1, k1, s1, hx⟩ <;> rw [e0] at e1 <;> cases e1
  · cases e; exact .refl _
  · obtain ⟨vg, hg⟩ := I.weak_live ht
    obtain ⟨⟨h2, i⟩, e2, e⟩ := okb e
    cases e
    exact .trans (.of_eq k1) (ensureImg_ev (g + 1) g1 (by rw [k1]; exact hp) (x := g) (v := vg) (by rw [k1]; exact hg) (by omega) e2)

theorem dropStrong_ev {x : Nat} {ts : List Task} (e : dropStrong h x = .ok (h', ts)) : Ev h.sk h'.sk := by
  simp only [dropStrong] at e
  split at e
  · cases e
  · split at e
    · cases e; exact .refl _
    · split at e
      · cases e
      · cases e; exact kill_ev
      · obtain ⟨h1, e1, e⟩ := okb e
        obtain ⟨h2, e2, e⟩ := okb e
        cases e
        exact kill_ev.trans (.trans (.of_eq (decW_k e1)) (.of_eq (decW_k e2)))
      · obtain ⟨h1, e1, e⟩ := okb e
        obtain ⟨h2, e2, e⟩ := okb e
        obtain ⟨h3, e3, e⟩ := okb e
        cases e
        exact kill_ev.trans (.trans (.of_eq (decW_k e1)) (.trans (.of_eq (decW_k e2)) (.of_eq (decW_k e3))))
      · split at e
        · cases e; exact kill_ev
        · split at e <;> cases e
          exact kill_ev.trans (.same rfl rfl rfl rfl rfl rfl)

theorem taskStep_ev {t : Task} {ts : List Task} (e : taskStep h t = .ok (h', ts)) : Ev h.sk h'.sk := by
  cases t with
  | dropS x => exact dropStrong_ev e
  | dropRcSlice d i =>
    obtain ⟨⟨h1, ts1⟩, e1, e⟩ := okb e
    cases e
    exact dropStrong_ev e1
  | userCode => cases e; exact .refl _
  | dropReg r =>
    simp only [taskStep] at e
    split at e
    · cases e; exact .refl _
    · split at e
      · cases e
      · split at e <;> cases e
        exact .refl _

theorem writeItem_k {b i : Nat} {a : α} (e : writeItem h b i a = .ok h') : h'.sk = h.sk := by
  simp only [writeItem] at e
  split at e
  · cases e
  · split at e <;> cases e
    rfl

theorem iterNext_k {r r' : Reg} {en : End} {o : Option α} {ts : List Task} (e : iterNext h r en = .ok (h', o, r', ts)) : h'.sk = h.sk := by
  simp only [iterNext] at e
  split at e
  · cases e; rfl
  · split at e
    · cases e
    · split at e
      · cases en <;> dsimp only at e <;> split at e <;> cases e <;> rfl
      · cases e

theorem iterSplit_k {r1 r2 r3 r4 : Reg} (e : iterSplit h r1 r2 = .ok (h', r3, r4)) : h'.sk = h.sk := by
  obtain ⟨⟨h1, a, b⟩, e1, e⟩ := okb e
  cases e
  exact splitAlloc_k e1

theorem regSplitOff_k {r r1 r2 : Reg} {s : Side} (e : regSplitOff h r s = .ok (h', r1, r2)) : h'.sk = h.sk := by
  simp only [regSplitOff] at e
  obtain ⟨h1, e1, e⟩ := okb e
  cases e
  exact incSOpt_k e1

theorem partsNext_k {umax b : Nat} {al al' : Option Nat} {it it' : SliceItemsParts} {en : End} {o : Option Reg}
    (e : partsNext umax h b al it en = .ok (h', o, al', it')) : h'.sk = h.sk := by
  simp only [partsNext] at e
  obtain ⟨⟨o1, it1⟩, e1, e⟩ := okb e
  cases o1 with
  | none => cases e; rfl
  | some x =>
    obtain ⟨_, _, e⟩ := okb e
    obtain ⟨⟨h1, a, b⟩, e2, e⟩ := okb e
    cases e
    exact splitAlloc_k e2

theorem dropHandle_k {umax : Nat} {x : Handle} {ts : List Task} (e : dropHandle umax h x = .ok (h', ts)) : h'.sk = h.sk := by
  cases x with
  | strong d i => cases e; rfl
  | weak d g =>
    obtain ⟨h1, e1, e⟩ := okb e
    cases e
    exact decW_k e1
  | uniq r => cases e; rfl
  | iter r => cases e; rfl
  | parts b a it =>
    obtain ⟨r, _, e⟩ := okb e
    cases e
    rfl

end

theorem exec_ev {umax : Nat} {s s' : State α} {T : List Tok} (I : Inv s.h (tabToks umax s.hs ++ T)) (hp : PH s.h.sk) {op : Op α} {o : Obs α} {ts : List Task}
    (e : exec umax s op = .ok (s', o, ts)) : Ev s.h.sk s'.h.sk := by
  have tok : ∀ {k x}, s.get k = some x → x.tok umax ∈ tabToks umax s.hs ++ T := fun h => List.mem_append_left _ (mem_tabToks.2 ⟨_, _, h, rfl⟩)
  cases op with
  | rcNew xs =>
    simp only [exec] at e
    split at e
    · obtain ⟨⟨h1, d, i⟩, e1, e⟩ := okb e
      cases e
      exact rcFromBox_ev e1
    · cases e; exact .refl _
  | mutNew xs =>
    simp only [exec] at e
    split at e <;> cases e
    · exact mutFromBox_ev rfl
    · exact .refl _
  | weakNew =>
    cases e
    exact .trans .fam (.add (h := (newFam s.h ⟨0, ⟨0, 0⟩, false⟩).1) (fun _ => okl_root) (by simp [Node.kind]))
  | clone k =>
    simp only [exec] at e
    split at e
    · obtain ⟨h1, e1, e⟩ := okb e
      cases e
      exact .of_eq (rcClone_k e1)
    · obtain ⟨h1, e1, e⟩ := okb e
      cases e
      obtain ⟨h2, e2, e3⟩ := okb e1
      exact .of_eq ((incS_k e3).trans (cloneW_k e2))
    · obtain ⟨xs, e1, e⟩ := okb e
      cases e
      exact mutFromBox_ev rfl
    · cases e; exact .refl _
  | cloneSide sd k =>
    simp only [exec] at e
    split at e
    · next hk =>
      obtain ⟨⟨h1, d, i⟩, e1, e⟩ := okb e
      cases e
      exact rcCloneSide_ev I hp (tok hk) e1
    · cases e; exact .refl _
  | splitOff sd k =>
    simp only [exec] at e
    split at e
    · next d i hk =>
      obtain ⟨⟨h1, ld, li⟩, e1, e⟩ := okb e
      obtain ⟨⟨h2, rd, ri⟩, e2, e⟩ := okb e
      have k1 := rcCloneSide_ev I hp (tok hk) e1
      obtain ⟨v, _, hd, _⟩ := I.strong_live (tok hk)
      obtain ⟨h1', c', j', e1', I1, _⟩ := rcCloneSide_ok I (tok hk) hd .L
      rw [e1] at e1'
      cases e1'
      have k2 := rcCloneSide_ev I1 (hp.next k1) (List.mem_cons_of_mem _ (tok hk)) e2
      cases sd <;> cases e <;> exact .trans k1 k2
    · obtain ⟨⟨h1, r1, r2⟩, e1, e⟩ := okb e
      cases e
      exact .of_eq (regSplitOff_k e1)
    · cases e; exact .refl _
  | getMut k j a =>
    simp only [exec] at e
    split at e
    · obtain ⟨b, e1, e⟩ := okb e
      split at e
      · obtain ⟨v, _, e⟩ := okb e
        split at e
        · obtain ⟨h1, e2, e⟩ := okb e
          cases e
          exact .of_eq (writeItem_k e2)
        · cases e; exact .refl _
      · cases e; exact .refl _
    · cases e; exact .refl _
  | write k j a =>
    simp only [exec] at e
    split at e
    · cases e; exact .refl _
    · obtain ⟨q, _, e⟩ := okb e
      split at e
      · cases e; exact .refl _
      · split at e
        · obtain ⟨h1, e2, e⟩ := okb e
          cases e
          exact .of_eq (writeItem_k e2)
        · cases e; exact .refl _
    · cases e; exact .refl _
  | read k =>
    simp only [exec] at e
    split at e
    · obtain ⟨q, _, e⟩ := okb e
      split at e
      · cases e; exact .refl _
      · obtain ⟨xs, _, e⟩ := okb e
        cases e; exact .refl _
    · cases e; exact .refl _
  | intoMut k =>
    simp only [exec] at e
    split at e
    · obtain ⟨⟨h1, q⟩, e1, e⟩ := okb e
      have := intoMut_ev e1
      cases q <;> cases e <;> exact this
    · cases e; exact .refl _
  | intoImmut k =>
    simp only [exec] at e
    split at e
    · obtain ⟨⟨h1, d, i⟩, e1, e⟩ := okb e
      cases e
      exact rcFromParts_ev e1
    · cases e; exact .refl _
  | downgrade k =>
    simp only [exec] at e
    split at e
    · obtain ⟨⟨h1, g⟩, e1, e⟩ := okb e
      cases e
      obtain ⟨h2, e2, e1⟩ := okb e1
      obtain ⟨vi, _, e1⟩ := okb e1
      obtain ⟨h3, e3, e1⟩ := okb e1
      cases e1
      exact .of_eq ((incS_k e3).trans (incW_k e2))
    · cases e; exact .refl _
  | upgrade k =>
    simp only [exec] at e
    split at e
    · next hk =>
      obtain ⟨⟨h1, q⟩, e1, e⟩ := okb e
      have := upgradeWeak_ev I hp (tok hk) e1
      cases q <;> cases e <;> exact this
    · cases e; exact .refl _
  | drop k =>
    simp only [exec] at e
    split at e
    · obtain ⟨⟨h1, q⟩, e1, e⟩ := okb e
      cases e
      exact .of_eq (dropHandle_k e1)
    · cases e; exact .refl _
  | intoIter k =>
    simp only [exec] at e
    split at e <;> cases e <;> exact .refl _
  | next en k =>
    simp only [exec] at e
    split at e
    · obtain ⟨⟨h1, q, r, t⟩, e1, e⟩ := okb e
      have := iterNext_k e1
      cases q <;> cases e <;> exact .of_eq this
    · cases e; exact .refl _
  | splitOffFrom k n =>
    simp only [exec] at e
    split at e
    · split at e
      · obtain ⟨⟨h1, q, r⟩, e1, e⟩ := okb e
        cases e
        exact .of_eq (iterSplit_k e1)
      · cases e; exact .refl _
    · cases e; exact .refl _
  | splitOffTo k n =>
    simp only [exec] at e
    split at e
    · split at e
      · obtain ⟨⟨h1, q, r⟩, e1, e⟩ := okb e
        cases e
        exact .of_eq (iterSplit_k e1)
      · cases e; exact .refl _
    · cases e; exact .refl _
  | intoParts k n =>
    simp only [exec] at e
    split at e
    · split at e
      · split at e <;> cases e <;> exact .refl _
      · cases e; exact .refl _
    · cases e; exact .refl _
  | nextPart en k =>
    simp only [exec] at e
    split at e
    · obtain ⟨⟨h1, q, r, t⟩, e1, e⟩ := okb e
      have := partsNext_k e1
      cases q <;> cases e <;> exact .of_eq this
    · cases e; exact .refl _

theorem Config.PReach.hist {umax : Nat} {zst : Bool} {c : Config α} (h : Config.PReach umax zst c) : PH c.st.h.sk ∧ HU c.st.h.sk := by
  induction h with
  | init => exact ⟨fun x hx => absurd hx (Nat.not_lt_zero _), nofun, fun x hx => absurd hx (Nat.not_lt_zero _), fun x hx => absurd hx (Nat.not_lt_zero _),
      fun x _ hx => absurd hx (Nat.not_lt_zero _)⟩
  | step c c' hr st ih =>
    obtain ⟨w, _, R⟩ := preach_sim hr
    generalize hq : (Except.ok c' : Except UB (Config α)) = r at st
    cases st with
    | step c r st =>
      cases st with
      | task st t ts =>
        cases e : taskStep st.h t with
        | error => rw [e] at hq; cases hq
        | ok q =>
          rw [e] at hq
          simp only [Except.map, Except.ok.injEq] at hq
          subst hq
          exact ⟨ih.1.next (taskStep_ev e), (taskStep_ev e).hist ih.2⟩
      | call st ts op hp =>
        cases e : exec umax st op with
        | error => rw [e] at hq; cases hq
        | ok q =>
          rw [e] at hq
          simp only [Except.map, Except.ok.injEq] at hq
          subst hq
          have k := exec_ev R.inv ih.1 e
          exact ⟨ih.1.next k, k.hist ih.2⟩
    | panic st h' r ts ts' u =>
      obtain ⟨w', R', _, hl⟩ := panic_sim R u
      cases hq
      show Rc.PH h'.sk ∧ HU h'.sk
      rw [hl.sk]
      exact ih

/-! ## What follows -/

section
variable {umax : Nat} {zst : Bool} {c : Config α}

theorem Config.PReach.shape (h : Config.PReach umax zst c) : Shape c.st.h.sk := by
  obtain ⟨w, _, R⟩ := preach_sim h
  exact R.inv.good.shape

theorem Config.PReach.proper (h : Config.PReach umax zst c) {x : Nat} {n : Node} (hx : c.st.h.sk.node x = some n) (hn : n.kind ≠ .alloc) :
    Proper (c.st.h.sk.fams (c.st.h.sk.lab x).fam).rng (c.st.h.sk.lab x).path := by
  obtain ⟨w, _, R⟩ := preach_sim h
  exact (h.hist.1 x (R.inv.good.ledger.lt hx) (by rw [R.inv.good.shape.kinds _ _ hx]; exact hn)).2

theorem Config.PReach.count (h : Config.PReach umax zst c) {f : Nat} {l : List Nat} (hn : l.Nodup)
    (hl : ∀ x ∈ l, x < c.st.h.sk.next ∧ c.st.h.sk.kind x ≠ .alloc ∧ (c.st.h.sk.lab x).fam = f)
    (hu : ∀ x ∈ l, ∀ y ∈ l, c.st.h.sk.lab x = c.st.h.sk.lab y → x = y) : l.length ≤ most (c.st.h.sk.fams f).rng.len := by
  rw [← List.length_map (f := fun x => (c.st.h.sk.lab x).path)]
  have inj : ∀ {l m : Lab}, l.fam = m.fam → l.path = m.path → l = m := fun {l m} a b => by cases l; cases m; simp_all
  refine proper_count (List.pairwise_map.2 (hn.imp_of_mem fun {x y} hx hy hne he => hne (hu x hx y hy (inj ((hl x hx).2.2.trans (hl y hy).2.2.symm) he))))
    fun p hp => ?_
  obtain ⟨x, hx, rfl⟩ := List.mem_map.1 hp
  obtain ⟨h1, h2, rfl⟩ := hl x hx
  exact (h.hist.1 x h1 h2).2

theorem Config.mem_guards {kd : Kind} {f x : Nat} (h : x ∈ c.guards kd f) :
    x < c.st.h.sk.next ∧ (c.st.h.sk.node x ≠ none ∨ 0 < c.st.h.weak x) ∧ c.st.h.sk.kind x = kd ∧ (c.st.h.sk.lab x).fam = f := by
  have := List.mem_filter.1 h
  simp only [Bool.and_eq_true, Bool.or_eq_true, decide_eq_true_eq, List.mem_range, Option.isSome_iff_ne_none] at this
  obtain ⟨h1, ⟨h2, h3⟩, h4⟩ := this
  exact ⟨h1, h2, h3, h4⟩

theorem Config.guards_nodup {kd : Kind} {f : Nat} : (c.guards kd f).Nodup := List.nodup_range.sublist List.filter_sublist

/-- The memory of a guard that was dropped is still there because of a guard that was not. -/
theorem Config.PReach.held (h : Config.PReach umax zst c) {x : Nat} (hk : c.st.h.sk.kind x ≠ .data) (hw : 0 < c.st.h.weak x) :
    ∃ y n, c.st.h.sk.node y = some n ∧ x ∈ n.wrefs := by
  obtain ⟨w, _, R⟩ := preach_sim h
  have L := R.inv.good.ledger.w x
  have h0 : (Ws (tabToks umax c.st.hs ++ toksOf c.tasks)).count x = 0 := by
    refine List.count_eq_zero.2 fun hm => ?_
    obtain ⟨t, ht, hx⟩ := List.mem_flatMap.1 hm
    cases t with
    | weak d g =>
      have := R.inv.toks _ ht
      simp only [Tok.W, Option.mem_toList] at hx
      exact hk (this.2.2 x hx).1
    | _ => cases hx
  obtain ⟨y, _, hy⟩ := sumTo_pos (show 0 < nsum c.st.h.sk fun n => n.wrefs.count x by omega)
  cases hn : c.st.h.sk.node y with
  | none => rw [hn] at hy; exact absurd hy (Nat.lt_irrefl 0)
  | some n =>
    rw [hn] at hy
    exact ⟨y, n, hn, List.count_pos_iff.1 hy⟩

/-- The one that refers to a `GetMutGuard`. -/
theorem Config.PReach.gmgHeld (h : Config.PReach umax zst c) {x : Nat} (hk : c.st.h.sk.kind x = .gmg)
    (hx : c.st.h.sk.node x ≠ none ∨ 0 < c.st.h.weak x) :
    (∃ v, c.st.h.sk.node x = some (.gmg v) ∧ (c.st.h.sk.lab x).path = []) ∨
    ∃ y v s, c.st.h.sk.node y = some (.gmg v) ∧ v.kids s = some x ∧ c.st.h.sk.lab x = (c.st.h.sk.lab y).child s := by
  have S := h.shape
  by_cases hn : c.st.h.sk.node x = none
  · obtain ⟨y, n, hy, hm⟩ := h.held (by rw [hk]; simp) (hx.resolve_left (absurd hn))
    have side : ∀ {ks : Side → Option Nat}, x ∈ (ks .L).toList ++ (ks .R).toList → ∃ s, ks s = some x := fun hm => by
      rcases List.mem_append.1 hm with h1 | h1
      · exact ⟨.L, Option.mem_toList.1 h1⟩
      · exact ⟨.R, Option.mem_toList.1 h1⟩
    cases n with
    | img v =>
      obtain ⟨s, hs⟩ := side hm
      have := (S.imgKid y v s x hy hs).2.1
      rw [hk] at this; cases this
    | gmg v =>
      rcases List.mem_append.1 hm with h1 | h1
      · obtain ⟨s, hs⟩ := side h1
        exact .inr ⟨y, v, s, hy, hs, (S.gmgKid y v s x hy hs).1⟩
      · have := (S.gmgImg y v x hy (Option.mem_toList.1 h1)).2.1
        rw [hk] at this; cases this
    | _ => cases hm
  · obtain ⟨n, hn⟩ := Option.ne_none_iff_exists'.1 hn
    have := S.kinds x n hn
    rw [hk] at this
    cases n <;> try cases this
    next v =>
    cases hp : v.parent with
    | none => exact .inl ⟨v, hn, S.gmgRoot x v hn hp⟩
    | some q =>
      obtain ⟨y, s⟩ := q
      obtain ⟨_, h2, vy, h3⟩ := S.gmgPar x v y s hn hp
      exact .inr ⟨y, vy, s, h3, S.gmgDown y vy x v s h3 hn h2, h2⟩

theorem child_inj {l m : Lab} {s t : Side} (h : l.child s = m.child t) : l = m ∧ s = t := by
  cases l; cases m
  simp only [Lab.child, Lab.mk.injEq, List.cons.injEq] at h ⊢
  exact ⟨⟨h.1, h.2.2⟩, h.2.1⟩

theorem Config.PReach.gmgUniq (h : Config.PReach umax zst c) {x y : Nat} (kx : c.st.h.sk.kind x = .gmg) (ky : c.st.h.sk.kind y = .gmg)
    (hx : c.st.h.sk.node x ≠ none ∨ 0 < c.st.h.weak x) (hy : c.st.h.sk.node y ≠ none ∨ 0 < c.st.h.weak y)
    (hl : c.st.h.sk.lab x = c.st.h.sk.lab y) : x = y := by
  have S := h.shape
  rcases h.gmgHeld kx hx with ⟨v, h1, h2⟩ | ⟨p, v, s, h1, h2, h3⟩ <;> rcases h.gmgHeld ky hy with ⟨w, h4, h5⟩ | ⟨q, w, t, h4, h5, h6⟩
  · exact S.gmgUniq x v y w h1 h4 hl
  · rw [hl, h6] at h2; cases h2
  · rw [← hl, h3] at h5; cases h5
  · rw [h3, h6] at hl
    obtain ⟨hl', rfl⟩ := child_inj hl
    have := S.gmgUniq p v q w h1 h4 hl'
    subst this
    rw [h1] at h4
    cases h4
    rw [h2] at h5
    exact Option.some.inj h5

/-- An `IntoMutGuard` is live, or its parent or its `GetMutGuard` refers to it. -/
theorem Config.PReach.imgHeld (h : Config.PReach umax zst c) {x : Nat} (hk : c.st.h.sk.kind x = .img)
    (hx : c.st.h.sk.node x ≠ none ∨ 0 < c.st.h.weak x) :
    (∃ v, c.st.h.sk.node x = some (.img v)) ∨
    (∃ y v s, c.st.h.sk.node y = some (.img v) ∧ v.kids s = some x ∧ c.st.h.sk.lab x = (c.st.h.sk.lab y).child s) ∨
    ∃ y v, c.st.h.sk.node y = some (.gmg v) ∧ v.img = some x ∧ c.st.h.sk.lab x = c.st.h.sk.lab y := by
  have S := h.shape
  by_cases hn : c.st.h.sk.node x = none
  · obtain ⟨y, n, hy, hm⟩ := h.held (by rw [hk]; simp) (hx.resolve_left (absurd hn))
    have side : ∀ {ks : Side → Option Nat}, x ∈ (ks .L).toList ++ (ks .R).toList → ∃ s, ks s = some x := fun hm => by
      rcases List.mem_append.1 hm with h1 | h1
      · exact ⟨.L, Option.mem_toList.1 h1⟩
      · exact ⟨.R, Option.mem_toList.1 h1⟩
    cases n with
    | img v =>
      obtain ⟨s, hs⟩ := side hm
      exact .inr (.inl ⟨y, v, s, hy, hs, (S.imgKid y v s x hy hs).1⟩)
    | gmg v =>
      rcases List.mem_append.1 hm with h1 | h1
      · obtain ⟨s, hs⟩ := side h1
        have := (S.gmgKid y v s x hy hs).2.1
        rw [hk] at this; cases this
      · exact .inr (.inr ⟨y, v, hy, Option.mem_toList.1 h1, (S.gmgImg y v x hy (Option.mem_toList.1 h1)).1⟩)
    | _ => cases hm
  · obtain ⟨n, hn⟩ := Option.ne_none_iff_exists'.1 hn
    have := S.kinds x n hn
    rw [hk] at this
    cases n <;> try cases this
    exact .inl ⟨_, hn⟩

/-- The chains of drops through guards get nearer to the root; those through slice data go away from it. -/
theorem Config.Inside.cases_on (S : Shape c.st.h.sk) {x n y : Nat} (h : Config.Inside c x n y) :
    (∀ v, c.st.h.sk.node x = some (.data v) → ∃ w, c.st.h.sk.node y = some (.data w) ∧
      (c.st.h.sk.lab y).fam = (c.st.h.sk.lab x).fam ∧ n + (c.st.h.sk.lab x).path.length = (c.st.h.sk.lab y).path.length) ∧
    (∀ v, c.st.h.sk.node x = some (.gmg v) → n ≤ (c.st.h.sk.lab x).path.length) ∧
    (∀ v, c.st.h.sk.node x = some (.img v) → n ≤ (c.st.h.sk.lab x).path.length + 1) := by
  induction h with
  | self x => exact ⟨fun v hv => ⟨v, hv, rfl, by omega⟩, fun _ _ => by omega, fun _ _ => by omega⟩
  | img h hp hn ih =>
    obtain ⟨_, ⟨s, h2⟩, vc, h3⟩ := S.imgPar _ _ _ h hp
    refine ⟨fun w hw => ?_, fun w hw => ?_, fun w hw => ?_⟩ <;> rw [h] at hw <;> cases hw
    have := ih.2.2 _ h3
    rw [h2]
    simp [Lab.child]
    omega
  | own h hn ih =>
    obtain ⟨h2, vc, h3⟩ := S.imgGmg _ _ h
    refine ⟨fun w hw => ?_, fun w hw => ?_, fun w hw => ?_⟩ <;> rw [h] at hw <;> cases hw
    have := ih.2.1 _ h3
    rw [h2] at this
    omega
  | gmg h hp hn ih =>
    obtain ⟨_, h2, vc, h3⟩ := S.gmgPar _ _ _ _ h hp
    refine ⟨fun w hw => ?_, fun w hw => ?_, fun w hw => ?_⟩ <;> rw [h] at hw <;> cases hw
    have := ih.2.1 _ h3
    rw [h2]
    simp [Lab.child]
    omega
  | data h hk hn ih =>
    obtain ⟨_, h2, vc, h3⟩ := S.dataKid _ _ _ _ h hk
    refine ⟨fun w hw => ?_, fun w hw => ?_, fun w hw => ?_⟩ <;> rw [h] at hw <;> cases hw
    obtain ⟨w, hw, hf, hl⟩ := ih.1 _ h3
    refine ⟨w, hw, hf.trans (by rw [h2]; rfl), ?_⟩
    rw [h2] at hl
    simp [Lab.child] at hl
    omega

end
end Verif.Rc
