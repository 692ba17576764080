import Verif.Arc.Proofs.PStep
/-!
# Which guard belongs to which slice

At any time at most one live guard belongs to a live slice, and guards are linked like the
slices they belong to.
-/

namespace Verif.Arc
open Verif.Spec (Side Slot Family Rng End)
open Verif.Rc
variable {α : Type}

/-- A box that is, or was, in the `guard` field of `x`. -/
def BoxAt (a : Arena α) (b x : Nat) : Prop := b < a.nbox ∧ ∀ g, a.tgt b = some g → g < a.ng ∧ a.gOf g = x

/-- No guard will ever be found in this box. -/
def DeadB (a : Arena α) (b : Nat) : Prop := ∀ g, a.tgt b = some g → a.gS g = 0

structure GF (a : Arena α) : Prop where
  box : ∀ x, x < a.b.sk.next → a.b.sk.kind x = .data → BoxAt a (a.box x) x
  lt : ∀ g v, a.guard g = some v → g < a.ng
  gof : ∀ g, g < a.ng → a.gOf g < a.b.sk.next ∧ a.b.sk.kind (a.gOf g) = .data
  uniq : ∀ g v n, a.guard g = some v → a.b.sk.node (a.gOf g) = some n → a.tgt (a.box (a.gOf g)) = some g
  link1 : ∀ g v p, a.guard g = some v → v.parent = some p → p < g ∧ a.par (a.gOf g) = some (a.gOf p)
  link2 : ∀ g v p n, a.guard g = some v → v.parent = none → a.b.sk.node (a.gOf g) = some n → a.par (a.gOf g) = some p →
    a.b.sk.node p = none

/-- How the guards evolve. -/
structure GEvo (a a' : Arena α) : Prop where
  evo : AEvo a a'
  ng : a.ng ≤ a'.ng
  nbox : a.nbox ≤ a'.nbox
  gOf : ∀ g, g < a.ng → a'.gOf g = a.gOf g
  tgt : ∀ b, b < a.nbox → a'.tgt b = a.tgt b
  dead : ∀ g, g < a.ng → a.gS g = 0 → a'.gS g = 0

def frG (a : Arena α) (fs : List GFrame) : Prop := ∀ f ∈ fs, BoxAt a f.b f.x ∧ DeadB a f.b

def retG (a : Arena α) (g : Nat) : List GFrame → Nat → Prop
  | [], y => g < a.ng ∧ a.gOf g = y
  | f :: _, _ => g < a.ng ∧ a.gOf g = f.p

def ogG (a : Arena α) (x : Nat) : Option Nat → Prop
  | none => ∀ p, a.par x = some p → a.b.sk.node p = none
  | some g => g < a.ng ∧ a.par x = some (a.gOf g)

def ofG (a : Arena α) (d g : Nat) : Prop := g < a.ng ∧ a.gOf g = d

/-- Which guard belongs to what at a program point. -/
def pcG (a : Arena α) : Pc α → Prop
  | .gLoad _ fs _ => frG a fs
  | .gTry x b _ fs _ => BoxAt a b x ∧ frG a fs
  | .gPar x b fs _ => BoxAt a b x ∧ DeadB a b ∧ frG a fs
  | .gCas x b og fs _ => BoxAt a b x ∧ DeadB a b ∧ ogG a x og ∧ frG a fs
  | .gRet g fs y => retG a g fs y ∧ frG a fs
  | .gm0 d g | .gm1 d g | .gm2 d g | .gm3 d g | .gm4 d g | .gmOpenC d g _ | .gmOpenD d g _ => ofG a d g
  | .im0 d g | .im1 d g | .im2 d g | .imOpen d g => ofG a d g
  | _ => True

def entG (a : Arena α) : Handle → Prop
  | .strong d g => ofG a d g
  | .weak d g => ∀ x, g = some x → ∃ y, d = some y ∧ ofG a y x
  | .uniq _ => True

def ataskG (a : Arena α) : ATask → Prop
  | .slice d g => ofG a d g
  | _ => True

section
variable {a a' : Arena α}

theorem GEvo.refl (B : Base a.b.sk) : GEvo a a :=
  ⟨.refl B, Nat.le_refl _, Nat.le_refl _, fun _ _ => rfl, fun _ _ => rfl, fun _ _ h => h⟩

theorem BoxAt.mono {b x : Nat} (e : GEvo a a') (h : BoxAt a b x) : BoxAt a' b x := by
  refine ⟨Nat.lt_of_lt_of_le h.1 e.nbox, fun g hg => ?_⟩
  rw [e.tgt b h.1] at hg
  obtain ⟨h1, h2⟩ := h.2 g hg
  exact ⟨Nat.lt_of_lt_of_le h1 e.ng, by rw [e.gOf g h1]; exact h2⟩

theorem DeadB.mono {b x : Nat} (e : GEvo a a') (hb : BoxAt a b x) (h : DeadB a b) : DeadB a' b := by
  intro g hg
  rw [e.tgt b hb.1] at hg
  exact e.dead g (hb.2 g hg).1 (h g hg)

theorem frG.mono {fs : List GFrame} (e : GEvo a a') (h : frG a fs) : frG a' fs :=
  fun f hf => ⟨(h f hf).1.mono e, (h f hf).2.mono e (h f hf).1⟩

theorem ofG.mono {d g : Nat} (e : GEvo a a') (h : ofG a d g) : ofG a' d g :=
  ⟨Nat.lt_of_lt_of_le h.1 e.ng, by rw [e.gOf g h.1]; exact h.2⟩

theorem retG.mono {g y : Nat} {fs : List GFrame} (e : GEvo a a') (h : retG a g fs y) : retG a' g fs y := by
  cases fs with
  | nil => exact ofG.mono e h
  | cons f fs => exact ofG.mono e h

theorem ogG.mono {x : Nat} {og : Option Nat} (e : GEvo a a') (P : ParOK a) (hx : x < a.b.sk.next) (h : ogG a x og) : ogG a' x og := by
  cases og with
  | none =>
    intro p hp
    rw [e.evo.par x hx] at hp
    exact e.evo.evo.dead p (P.par x p hp).2.1 (h p hp)
  | some g => exact ⟨Nat.lt_of_lt_of_le h.1 e.ng, by rw [e.evo.par x hx, e.gOf g h.1]; exact h.2⟩

theorem entG.mono {h : Handle} (e : GEvo a a') (hg : entG a h) : entG a' h := by
  cases h with
  | strong d g => exact ofG.mono e hg
  | weak d g =>
    intro x hx
    obtain ⟨y, h1, h2⟩ := hg x hx
    exact ⟨y, h1, ofG.mono e h2⟩
  | uniq r => trivial

theorem ataskG.mono {t : ATask} (e : GEvo a a') (hg : ataskG a t) : ataskG a' t := by
  cases t with
  | slice d g => exact ofG.mono e hg
  | _ => trivial

theorem pcG.mono {pc : Pc α} {bh : Option Handle} (e : GEvo a a') (P : ParOK a) (hp : pcOK a bh pc) (h : pcG a pc) : pcG a' pc := by
  cases pc with
  | gLoad x fs y => exact frG.mono e h
  | gTry x b o fs y => exact ⟨h.1.mono e, h.2.mono e⟩
  | gPar x b fs y => exact ⟨h.1.mono e, h.2.1.mono e h.1, h.2.2.mono e⟩
  | gCas x b og fs y => exact ⟨h.1.mono e, h.2.1.mono e h.1, h.2.2.1.mono e P (Chain.data P hp).2, h.2.2.2.mono e⟩
  | gRet g fs y => exact ⟨h.1.mono e, h.2.mono e⟩
  | gm0 d g | gm1 d g | gm2 d g | gm3 d g | gm4 d g | gmOpenC d g _ | gmOpenD d g _ | im0 d g | im1 d g | im2 d g | imOpen d g =>
    exact ofG.mono e h
  | _ => trivial

/-- No new guards; new nodes have new boxes. -/
theorem GF.of (G : GF a) (P : ParOK a) (e : GEvo a a') (hng : a'.ng = a.ng) (hbox : ∀ x, x < a.b.sk.next → a'.box x = a.box x)
    (hnew : ∀ x, a.b.sk.next ≤ x → x < a'.b.sk.next → a'.b.sk.kind x = .data → a'.box x < a'.nbox ∧ a'.tgt (a'.box x) = none)
    (hg : ∀ g v', a'.guard g = some v' → ∃ v, a.guard g = some v ∧ v'.parent = v.parent) : GF a' where
  box x h1 h2 := by
    by_cases hx : x < a.b.sk.next
    · rw [hbox x hx]
      rw [e.evo.evo.kind x hx] at h2
      exact (G.box x hx h2).mono e
    · obtain ⟨h3, h4⟩ := hnew x (by omega) h1 h2
      exact ⟨h3, by simp [h4]⟩
  lt g v h := by
    obtain ⟨v, h, _⟩ := hg g v h
    rw [hng]; exact G.lt g v h
  gof g h := by
    rw [hng] at h
    obtain ⟨h1, h2⟩ := G.gof g h
    rw [e.gOf g h]
    exact ⟨Nat.lt_of_lt_of_le h1 e.evo.evo.next, by rw [e.evo.evo.kind _ h1]; exact h2⟩
  uniq g v n h1 h2 := by
    obtain ⟨v, h1, _⟩ := hg g v h1
    have hlt := G.lt g v h1
    rw [e.gOf g hlt] at h2 ⊢
    obtain ⟨h3, h4⟩ := G.gof g hlt
    rw [hbox _ h3, e.tgt _ (G.box _ h3 h4).1]
    cases hn : a.b.sk.node (a.gOf g) with
    | none => rw [e.evo.evo.dead _ h3 hn] at h2; cases h2
    | some m => exact G.uniq g v m h1 hn
  link1 g v p h1 h2 := by
    obtain ⟨v', h1, h3⟩ := hg g v h1
    have hlt := G.lt g _ h1
    obtain ⟨h4, h5⟩ := G.link1 g v' p h1 (h3 ▸ h2)
    refine ⟨h4, ?_⟩
    rw [e.gOf g hlt, e.gOf p (by omega), e.evo.par _ (G.gof g hlt).1]; exact h5
  link2 g v p n h1 h2 h3 h4 := by
    obtain ⟨v', h1, h5⟩ := hg g v h1
    have hlt := G.lt g _ h1
    obtain ⟨h6, h7⟩ := G.gof g hlt
    rw [e.gOf g hlt] at h3 h4
    rw [e.evo.par _ h6] at h4
    refine e.evo.evo.dead p (P.par _ _ h4).2.1 ?_
    cases hn : a.b.sk.node (a.gOf g) with
    | none => rw [e.evo.evo.dead _ h6 hn] at h3; cases h3
    | some m => exact G.link2 g v' p m h1 (h5 ▸ h2) hn h4

theorem GEvo.withB {h : Heap α} (e : AEvo a (a.withB h)) : GEvo a (a.withB h) :=
  ⟨e, Nat.le_refl _, Nat.le_refl _, fun _ _ => rfl, fun _ _ => rfl, fun _ _ h => h⟩

theorem GF.withB (G : GF a) (P : ParOK a) {h : Heap α} (e : AEvo a (a.withB h))
    (hn : ∀ x, a.b.sk.next ≤ x → x < h.sk.next → h.sk.kind x = .data → False) : GF (a.withB h) :=
  G.of P (.withB e) rfl (fun _ _ => rfl) (fun x h1 h2 h3 => (hn x h1 h2 h3).elim) fun _ v hv => ⟨v, hv, rfl⟩

/-- Only guards change, and those only in their counts and gates. -/
theorem GF.guards (B : Base a.b.sk) (G : GF a) (P : ParOK a) (h1 : a'.b = a.b) (h2 : a'.par = a.par) (h3 : a'.ng = a.ng) (h4 : a'.nbox = a.nbox)
    (h5 : a'.box = a.box) (h6 : a'.tgt = a.tgt) (h7 : a'.gOf = a.gOf) (h8 : ∀ g, g < a.ng → a.gS g = 0 → a'.gS g = 0)
    (hg : ∀ g v', a'.guard g = some v' → ∃ v, a.guard g = some v ∧ v'.parent = v.parent) : GF a' ∧ GEvo a a' := by
  have e : GEvo a a' := ⟨.eq B h1 h2, by rw [h3]; exact Nat.le_refl _, by rw [h4]; exact Nat.le_refl _, fun _ _ => by rw [h7],
    fun _ _ => by rw [h6], h8⟩
  refine ⟨G.of P e h3 (fun _ _ => by rw [h5]) (fun x h9 h10 => ?_) hg, e⟩
  rw [h1] at h10; omega

theorem GF.setG (B : Base a.b.sk) (G : GF a) (P : ParOK a) {g : Nat} {v v' : GuardV} (hv : a.guard g = some v) (hp : v'.parent = v.parent) :
    GF (a.setG g v') ∧ GEvo a (a.setG g v') := by
  refine G.guards B P rfl rfl rfl rfl rfl rfl rfl (fun _ _ h => h) fun x w hw => ?_
  have hw' : upd a.guard g (some v') x = some w := hw
  by_cases hx : x = g
  · subst hx; rw [upd_same] at hw'; cases hw'; exact ⟨v, hv, hp⟩
  · rw [upd_ne _ _ hx] at hw'; exact ⟨w, hw', rfl⟩

theorem GF.incS (B : Base a.b.sk) (G : GF a) (P : ParOK a) {g : Nat} (hg : a.gS g ≠ 0) :
    GF { a with gS := upd a.gS g (a.gS g + 1) } ∧ GEvo a { a with gS := upd a.gS g (a.gS g + 1) } := by
  refine G.guards B P rfl rfl rfl rfl rfl rfl rfl (fun x _ h => ?_) fun x w hw => ⟨w, hw, rfl⟩
  have hx : x ≠ g := by rintro rfl; exact hg h
  show upd a.gS g _ x = 0
  rw [upd_ne _ _ hx]; exact h

theorem GF.setW (B : Base a.b.sk) (G : GF a) (P : ParOK a) (f : Nat → Nat) :
    GF { a with gW := f } ∧ GEvo a { a with gW := f } :=
  G.guards B P rfl rfl rfl rfl rfl rfl rfl (fun _ _ h => h) fun _ w hw => ⟨w, hw, rfl⟩

theorem root_eq {r : Reg} {a1 : Arena α} {d : Nat} (e : a.root r = (a1, d)) :
    d = a.b.sk.next ∧ a1.b.sk.next = a.b.sk.next + 1 ∧ a1.nbox = a.nbox + 1 ∧ a1.box = upd a.box d a.nbox ∧
    a1.tgt = upd a.tgt a.nbox none ∧ a1.ng = a.ng ∧ a1.guard = a.guard ∧ a1.gOf = a.gOf ∧ a1.gS = a.gS ∧
    a1.b.sk.lab d = ⟨a.b.sk.nfam, []⟩ ∧ a1.b.sk.nfam = a.b.sk.nfam + 1 ∧ a1.b.sk.kind = upd a.b.sk.kind d .data := by
  simp only [Arena.root, Prod.mk.injEq] at e
  obtain ⟨rfl, rfl⟩ := e
  refine ⟨rfl, rfl, rfl, rfl, rfl, rfl, rfl, rfl, rfl, ?_, rfl, rfl⟩
  exact upd_same _ a.b.sk.next _

/-- A new family. -/
theorem GF.root {a0 : Arena α} (G : GF a0) (P : ParOK a0) {r : Reg} {d : Nat} (ha : ∀ x, a0.b.sk.next ≤ x → x < a.b.sk.next → a'.b.sk.kind x ≠ .data)
    (h1 : a.ng = a0.ng) (h2 : a.guard = a0.guard) (h3 : a.gOf = a0.gOf) (h4 : a.gS = a0.gS) (h5 : a.nbox = a0.nbox) (h6 : a.tgt = a0.tgt)
    (h7 : a.box = a0.box) (h8 : a0.b.sk.next ≤ a.b.sk.next)
    (e : a.root r = (a', d)) (ev : AEvo a0 a') : GF a' ∧ GEvo a0 a' := by
  obtain ⟨e1, e2, e3, e4, e5, e6, e7, e8, e9, _⟩ := root_eq e
  have ge : GEvo a0 a' := ⟨ev, by omega, by omega, fun g _ => by rw [e8, h3], fun b hb => by
    rw [e5, upd_ne _ _ (by omega), h6], fun g _ h => by rw [e9, h4]; exact h⟩
  refine ⟨G.of P ge (by omega) (fun x hx => ?_) (fun x hx1 hx2 hk => ?_) fun g v hv => ⟨v, by rw [← h2, ← e7]; exact hv, rfl⟩, ge⟩
  · rw [e4, upd_ne _ _ (by omega), h7]
  · have : x = d := by
      rw [e1]
      refine Decidable.byContradiction fun hne => ha x hx1 (by omega) hk
    subst this
    rw [e4, e5, upd_same, upd_same]
    exact ⟨by omega, rfl⟩

theorem gf_task {t : ATask} {ts : List ATask} (B : Base a.b.sk) (G : GF a) (P : ParOK a) (ev : AEvo a a') (hn : a'.b.sk.next = a.b.sk.next)
    (e : ataskStep a t = .ok (a', ts)) : GF a' ∧ GEvo a a' ∧ ∀ t ∈ ts, ataskG a' t := by
  have hb : ∀ (l : List Task) (a' : Arena α), ∀ t ∈ l.map ATask.base, ataskG a' t := by
    intro l a' t ht; obtain ⟨t, _, rfl⟩ := List.mem_map.1 ht; trivial
  cases t with
  | base t =>
    obtain ⟨⟨h', ts'⟩, _, e2⟩ := bind_ok e
    cases pure_ok e2
    refine ⟨G.withB P ev fun x h1 h2 => ?_, .withB ev, hb _ _⟩
    have : h'.sk.next = a.b.sk.next := hn
    omega
  | slice d g =>
    obtain ⟨⟨h', ts'⟩, _, e2⟩ := bind_ok e
    cases pure_ok e2
    refine ⟨G.withB P ev fun x h1 h2 => ?_, .withB ev, fun t ht => ?_⟩
    · have : h'.sk.next = a.b.sk.next := hn
      omega
    · rcases List.mem_append.1 ht with ht | ht
      · exact hb _ _ t ht
      · simp only [List.mem_singleton] at ht; subst ht; trivial
  | guard g =>
    simp only [ataskStep, Arena.dropG] at e
    split at e
    · cases e
    · next h0 =>
      split at e
      · cases e
        have := G.guards (a' := { a with gS := upd a.gS g (a.gS g - 1) }) B P rfl rfl rfl rfl rfl rfl rfl (fun x _ h => ?_)
          fun _ w hw => ⟨w, hw, rfl⟩
        · exact ⟨this.1, this.2, by simp⟩
        · have hx : x ≠ g := by rintro rfl; exact h0 h
          show upd a.gS g _ x = 0
          rw [upd_ne _ _ hx]; exact h
      · split at e
        · cases e
        · next v hv =>
          cases e
          have := G.guards (a' := { a with gS := upd a.gS g 0, guard := upd a.guard g none }) B P rfl rfl rfl rfl rfl rfl rfl
            (fun x _ h => ?_) fun x w hw => ?_
          · refine ⟨this.1, this.2, fun t ht => ?_⟩
            obtain ⟨x, _, rfl⟩ := List.mem_map.1 ht; trivial
          · show upd a.gS g _ x = 0
            by_cases hx : x = g
            · subst hx; exact upd_same ..
            · rw [upd_ne _ _ hx]; exact h
          · have hw' : upd a.guard g none x = some w := hw
            by_cases hx : x = g
            · subst hx; rw [upd_same] at hw'; cases hw'
            · rw [upd_ne _ _ hx] at hw'; exact ⟨w, hw', rfl⟩

/-- A guard is published. -/
theorem GF.cas (B : Base a.b.sk) (G : GF a) (_P : ParOK a) {x b : Nat} {og : Option Nat} (hx : x < a.b.sk.next) (hk : a.b.sk.kind x = .data)
    (hb : a.box x = b) (hd : DeadB a b) (hl : ∀ g v, a.guard g = some v → a.gS g ≠ 0) (ho : ogG a x og) :
    GF ({ a with
          ng := a.ng + 1
          guard := upd a.guard a.ng (some ⟨og, false, false⟩)
          gS := upd a.gS a.ng 1
          gW := upd a.gW a.ng 1
          gOf := upd a.gOf a.ng x }.newBox x (some a.ng)) ∧
    GEvo a ({ a with
          ng := a.ng + 1
          guard := upd a.guard a.ng (some ⟨og, false, false⟩)
          gS := upd a.gS a.ng 1
          gW := upd a.gW a.ng 1
          gOf := upd a.gOf a.ng x }.newBox x (some a.ng)) := by
  have gof : ∀ g, g < a.ng → upd a.gOf a.ng x g = a.gOf g := fun g hg => upd_ne _ _ (by omega)
  have gev : GEvo a ({ a with
          ng := a.ng + 1
          guard := upd a.guard a.ng (some ⟨og, false, false⟩)
          gS := upd a.gS a.ng 1
          gW := upd a.gW a.ng 1
          gOf := upd a.gOf a.ng x }.newBox x (some a.ng)) :=
    ⟨.eq B rfl rfl, Nat.le_succ _, Nat.le_succ _, gof, fun b hb => upd_ne _ _ (Nat.ne_of_lt hb), fun g hg h => by
      show upd a.gS a.ng 1 g = 0
      rw [upd_ne _ _ (by omega)]; exact h⟩
  -- no live guard of `x`
  have hno : ∀ g v n, a.guard g = some v → a.b.sk.node (a.gOf g) = some n → a.gOf g ≠ x := by
    intro g v n h1 h2 h3
    have := G.uniq g v n h1 h2
    rw [h3, hb] at this
    exact hl g v h1 (hd g this)
  have old : ∀ g v, upd a.guard a.ng (some ⟨og, false, false⟩) g = some v → (g = a.ng ∧ v = ⟨og, false, false⟩) ∨ (g < a.ng ∧ a.guard g = some v) := by
    intro g v h
    by_cases hg : g = a.ng
    · subst hg; rw [upd_same] at h; cases h; exact .inl ⟨rfl, rfl⟩
    · rw [upd_ne _ _ hg] at h; exact .inr ⟨G.lt g v h, h⟩
  refine ⟨⟨?_, ?_, ?_, ?_, ?_, ?_⟩, gev⟩
  · intro y h1 h2
    show BoxAt _ (upd a.box x a.nbox y) y
    by_cases hy : y = x
    · subst hy
      rw [upd_same]
      refine ⟨Nat.lt_succ_self _, fun g hg => ?_⟩
      have hg' : upd a.tgt a.nbox (some a.ng) a.nbox = some g := hg
      rw [upd_same] at hg'; cases hg'
      exact ⟨Nat.lt_succ_self _, upd_same ..⟩
    · rw [upd_ne _ _ hy]; exact (G.box y h1 h2).mono gev
  · intro g v h
    rcases old g v h with ⟨rfl, _⟩ | ⟨h, _⟩
    · exact Nat.lt_succ_self _
    · exact Nat.lt_succ_of_lt h
  · intro g hg
    show upd a.gOf a.ng x g < _ ∧ a.b.sk.kind (upd a.gOf a.ng x g) = _
    by_cases hg' : g = a.ng
    · subst hg'; rw [upd_same]; exact ⟨hx, hk⟩
    · have hg2 : g < a.ng + 1 := hg
      rw [gof g (by omega)]; exact G.gof g (by omega)
  · intro g v n h1 h2
    have h2' : a.b.sk.node (upd a.gOf a.ng x g) = some n := h2
    show upd a.tgt a.nbox (some a.ng) (upd a.box x a.nbox (upd a.gOf a.ng x g)) = some g
    rcases old g v h1 with ⟨rfl, _⟩ | ⟨h, h3⟩
    · rw [upd_same, upd_same, upd_same]
    · rw [gof g h] at h2' ⊢
      rw [upd_ne _ _ (hno g v n h3 h2'), upd_ne]
      · exact G.uniq g v n h3 h2'
      · obtain ⟨h4, h5⟩ := G.gof g h
        exact Nat.ne_of_lt (G.box _ h4 h5).1
  · intro g v p h1 h2
    show p < g ∧ a.par (upd a.gOf a.ng x g) = some (upd a.gOf a.ng x p)
    rcases old g v h1 with ⟨rfl, rfl⟩ | ⟨h, h3⟩
    · simp only at h2
      subst h2
      rw [upd_same, gof p ho.1]; exact ho
    · obtain ⟨h4, h5⟩ := G.link1 g v p h3 h2
      rw [gof g h, gof p (by omega)]; exact ⟨h4, h5⟩
  · intro g v p n h1 h2 h3 h4
    have h3' : a.b.sk.node (upd a.gOf a.ng x g) = some n := h3
    have h4' : a.par (upd a.gOf a.ng x g) = some p := h4
    show a.b.sk.node p = none
    rcases old g v h1 with ⟨rfl, rfl⟩ | ⟨h, h5⟩
    · simp only at h2
      subst h2
      rw [upd_same] at h4'; exact ho p h4'
    · rw [gof g h] at h3' h4'
      exact G.link2 g v p n h5 h2 h3' h4'

theorem incSOpt_sk {h h' : Heap α} {o : Option Nat} (e : h.incSOpt o = .ok h') : h'.sk = h.sk := by
  cases o with
  | none => cases e; rfl
  | some x => obtain ⟨_, rfl⟩ := incS_some e; rfl

theorem mutFromBox_kind {h h' : Heap α} {xs : List α} {r : Reg} (e : mutFromBox h xs = (h', r)) :
    ∀ x, h.sk.next ≤ x → x < h'.sk.next → h'.sk.kind x = .data → False := by
  intro x h1 h2 h3
  simp only [mutFromBox] at e
  split at e
  · cases e
    have : (newBuf h xs).1.sk.next = h.sk.next := rfl
    omega
  · cases e
    have h2' : x < h.sk.next + 1 := h2
    have : x = h.sk.next := by omega
    subst this
    have h3' : upd h.sk.kind h.sk.next (Node.alloc (newBuf h xs).2).kind h.sk.next = .data := h3
    rw [upd_same] at h3'; cases h3'

/-- A step of a call keeps the guards in order. -/
theorem gf_pc {pc : Pc α} {n : Next α} {T : List AT} {bh : Option Handle} (I : HInv a.b (pcT pc ++ T)) (G : GF a) (P : ParOK a)
    (hp : pcOK a bh pc) (hg : pcG a pc) (hbg : ∀ h, bh = some h → entG a h) (hl : ∀ g v, a.guard g = some v → a.gS g ≠ 0) (ev : AEvo a a')
    (e : PStep a pc a' n) :
    GF a' ∧ GEvo a a' ∧ pcG a' n.pc ∧ (∀ t ∈ n.tasks, ataskG a' t) ∧ ∀ e ∈ n.push, entG a' e.h := by
  have B := I.base
  have hguard : ∀ (l : List Nat) (a' : Arena α), ∀ t ∈ l.map ATask.guard, ataskG a' t := by
    intro l a' t ht; obtain ⟨t, _, rfl⟩ := List.mem_map.1 ht; trivial
  have hbase : ∀ (l : List Task) (a' : Arena α), ∀ t ∈ l.map ATask.base, ataskG a' t := by
    intro l a' t ht; obtain ⟨t, _, rfl⟩ := List.mem_map.1 ht; trivial
  have same : ∀ {n : Next α}, pcG a n.pc → (∀ t ∈ n.tasks, ataskG a t) → (∀ e ∈ n.push, entG a e.h) →
      GF a ∧ GEvo a a ∧ pcG a n.pc ∧ (∀ t ∈ n.tasks, ataskG a t) ∧ ∀ e ∈ n.push, entG a e.h :=
    fun h1 h2 h3 => ⟨G, .refl B, h1, h2, h3⟩
  have heap : ∀ {h : Heap α} {n : Next α}, AEvo a (a.withB h) → h.sk = a.b.sk → pcG (a.withB h) n.pc → (∀ t ∈ n.tasks, ataskG (a.withB h) t) →
      (∀ e ∈ n.push, entG (a.withB h) e.h) →
      GF (a.withB h) ∧ GEvo a (a.withB h) ∧ pcG (a.withB h) n.pc ∧ (∀ t ∈ n.tasks, ataskG (a.withB h) t) ∧ ∀ e ∈ n.push, entG (a.withB h) e.h := by
    intro h n ev hs h1 h2 h3
    refine ⟨G.withB P ev fun x hx1 hx2 => ?_, .withB ev, h1, h2, h3⟩
    rw [hs] at hx2; omega
  have ktask : ∀ {t : ATask}, ataskG a' t → ∀ x ∈ [t], ataskG a' x := by
    intro t h x hx; simp only [List.mem_singleton] at hx; subst hx; exact h
  have kpush : ∀ {t : Ent} {a' : Arena α}, entG a' t.h → ∀ x ∈ [t], entG a' x.h := by
    intro t a' h x hx; simp only [List.mem_singleton] at hx; subst hx; exact h
  have nt : ∀ t ∈ ([] : List ATask), ataskG a' t := fun _ h => by cases h
  have np : ∀ t ∈ ([] : List Ent), entG a' t.h := fun _ h => by cases h
  have nf : frG a' [] := fun _ h => by cases h
  cases e with
  | done r => exact same trivial nt np
  | new0 xs hl r a1 d hr e =>
    obtain ⟨h1, h2⟩ := G.root (a := a.withB (newBuf a.b xs).1) P
      (fun x h1 h2 => by have : x < a.b.sk.next := h2; omega) rfl rfl rfl rfl rfl rfl rfl (Nat.le_refl _) e ev
    exact ⟨h1, h2, nf, nt, np⟩
  | new1 xs hl r h1 al a1 d eh hr e =>
    have hn : h1.sk.next = a.b.sk.next + 1 := by cases eh; rfl
    have hk : h1.sk.kind a.b.sk.next = .alloc := by cases eh; exact upd_same _ a.b.sk.next _
    have hre := root_eq e
    obtain ⟨h1, h2⟩ := G.root (a := a.withB h1) P
      (fun x hx1 hx2 => by
        have hx2' : x < h1.sk.next := hx2
        have : x = a.b.sk.next := by omega
        subst this
        rw [hre.2.2.2.2.2.2.2.2.2.2.2, upd_ne]
        · show h1.sk.kind _ ≠ _
          rw [hk]; exact fun h => by cases h
        · rw [hre.1]; exact Nat.ne_of_lt hx2')
      rfl rfl rfl rfl rfl rfl rfl (by show a.b.sk.next ≤ h1.sk.next; omega) e ev
    exact ⟨h1, h2, nf, nt, np⟩
  | mutNew xs h r e => exact ⟨G.withB P ev (mutFromBox_kind e), .withB ev, trivial, nt, kpush trivial⟩
  | immut r a1 d e =>
    obtain ⟨h1, h2⟩ := G.root (a := a) P (fun x h1 h2 => by omega) rfl rfl rfl rfl rfl rfl rfl (Nat.le_refl _) e ev
    exact ⟨h1, h2, nf, nt, np⟩
  | split s r h new rest e =>
    obtain ⟨h', r1, r2, e', _, ek, _⟩ := HInv.split (T := T) (r := r) I s
    rw [e] at e'; cases e'
    refine heap ev ek trivial nt ?_
    simp [entG]
  | nxt en r h o r' ts re hre e =>
    obtain ⟨h', o', r2, ts', e', _, ek, _⟩ := HInv.iterNext (T := T) (r := r) I en
    rw [e] at e'; cases e'
    exact heap ev ek trivial (hbase _ _) (kpush trivial)
  | cutF n r h new rest hn e =>
    obtain ⟨h', a1, a2, e', _, ek, _⟩ := HInv.cutF (T := T) (r := r) I hn
    rw [e] at e'; cases e'
    refine heap ev ek trivial nt ?_
    simp [entG]
  | cutB n r h new rest hn e =>
    obtain ⟨h', a1, a2, e', _, ek, _⟩ := HInv.cutB (T := T) (r := r) I hn
    rw [e] at e'; cases e'
    refine heap ev ek trivial nt ?_
    simp [entG]
  | cutNo en n r hn => exact same trivial nt (kpush trivial)
  | cl1 d g h e => obtain ⟨_, rfl⟩ := incS_some e; exact heap ev rfl trivial nt np
  | cl2 d g h =>
    obtain ⟨h1, h2⟩ := G.incS B P h
    exact ⟨h1, h2, trivial, nt, kpush (entG.mono h2 (hbg _ hp))⟩
  | waitC d g s v hv hc => exact same trivial nt np
  | waitO d g s v hv hc => exact same trivial nt np
  | csSame d s v h hd hs e => obtain ⟨_, rfl⟩ := incS_some e; exact heap ev rfl nf nt np
  | csKid d s v c hd hs hk => exact same trivial nt np
  | csNo d s v hd hs hk => exact same trivial nt np
  | csInc c h e => obtain ⟨_, rfl⟩ := incS_some e; exact heap ev rfl nf nt np
  | csNew d s v h hd e => exact heap ev (incSOpt_sk e) trivial nt np
  | csWin d s r v h1 c h2 hd hk e1 e2 =>
    have hc : c = a.b.sk.next := by cases e1; rfl
    have hn1 : h1.sk.next = a.b.sk.next + 1 := by cases e1; rfl
    obtain ⟨_, rfl⟩ := incS_some e2
    have ge : GEvo a ({ a with b := ({ h1 with strong := upd h1.strong c (h1.strong c + 1) } : Heap α).setNode d (.data (v.setKid s c)),
                               par := upd a.par c (some d) }.newBox c none) :=
      ⟨ev, Nat.le_refl _, Nat.le_succ _, fun _ _ => rfl, fun b hb => upd_ne _ _ (Nat.ne_of_lt hb), fun _ _ h => h⟩
    refine ⟨G.of P ge rfl (fun x hx => upd_ne _ _ (by omega)) (fun x hx1 hx2 hk => ?_) fun g v hv => ⟨v, hv, rfl⟩, ge, nf, nt, np⟩
    have hx2' : x < h1.sk.next := hx2
    have : x = c := by omega
    subst this
    show upd a.box x a.nbox x < a.nbox + 1 ∧ upd a.tgt a.nbox none (upd a.box x a.nbox x) = none
    rw [upd_same, upd_same]; exact ⟨Nat.lt_succ_self _, rfl⟩
  | csLost d s r v c hd hk => exact same trivial nt np
  | csLose c r h e => obtain ⟨_, rfl⟩ := incS_some e; exact heap ev rfl nf (ktask trivial) np
  | gLoad x fs y v hd => obtain ⟨h1, h2⟩ := Chain.data P hp; exact same ⟨G.box x h2 h1, hg⟩ nt np
  | gTryNo x b pend fs y h => exact same ⟨hg.1, h, hg.2⟩ (hguard _ _) np
  | gTryOk x b pend fs y g hb h =>
    obtain ⟨h1, h2⟩ := G.incS B P h
    refine ⟨h1, h2, ⟨?_, hg.2.mono h2⟩, hguard _ _, np⟩
    have : retG a g fs y := by
      obtain ⟨h3, h4⟩ := hg.1.2 g hb
      cases fs with
      | nil => obtain ⟨rfl, _⟩ := hp; exact ⟨h3, h4⟩
      | cons f fs => obtain ⟨rfl, _⟩ := hp; exact ⟨h3, h4⟩
    exact this.mono h2
  | gParNo x b fs y v hd h =>
    refine same ⟨hg.1, hg.2.1, fun p hpar => ?_, hg.2.2⟩ nt np
    cases hn : a.b.sk.node p with
    | none => rfl
    | some m =>
      have := I.pos hn
      have := h p hpar
      omega
  | gParUp x b fs y v p h hd hpar hs e =>
    obtain ⟨_, rfl⟩ := incS_some e
    refine heap ev rfl ?_ nt np
    intro f hf
    rcases List.mem_cons.1 hf with rfl | hf
    · exact ⟨hg.1, hg.2.1⟩
    · exact hg.2.2 f hf
  | gCasWin x b og fs y v hd hb =>
    obtain ⟨hk, hx⟩ := Chain.data P hp
    obtain ⟨h1, h2⟩ := G.cas B P hx hk hb hg.2.1 hl hg.2.2.1
    refine ⟨h1, h2, ⟨?_, hg.2.2.2.mono h2⟩, nt, np⟩
    cases fs with
    | nil => obtain ⟨rfl, _⟩ := hp; exact ⟨Nat.lt_succ_self _, upd_same ..⟩
    | cons f fs => obtain ⟨rfl, _⟩ := hp; exact ⟨Nat.lt_succ_self _, upd_same ..⟩
  | gCasLost x b og fs y v hd hb =>
    obtain ⟨h1, h2⟩ := Chain.data P hp
    exact same ⟨G.box x h2 h1, hg.2.2.2⟩ nt np
  | gRet0 g y => exact same trivial nt (kpush hg.1)
  | gRet1 g f fs y =>
    obtain ⟨h1, h2⟩ := hg
    obtain ⟨x, _, h3, h4⟩ := hp
    obtain ⟨h5, h6⟩ := h2 f (by simp)
    exact same ⟨h5, h6, ⟨h1.1, by rw [h1.2]; exact h3⟩, fun f hf => h2 f (by simp [hf])⟩ (ktask trivial) np
  | gm0No d g v hv hc => exact same trivial nt (kpush hg)
  | gm0 d g v hv hc => obtain ⟨h1, h2⟩ := G.setG B P (v' := { v with dGate := true }) hv rfl; exact ⟨h1, h2, ofG.mono h2 hg, nt, np⟩
  | gm1No d g v hv hc => exact same hg nt np
  | gm1 d g v hv hc => exact same hg nt np
  | gm2No d g v hv hc => exact same hg nt np
  | gm2 d g v hv hc => obtain ⟨h1, h2⟩ := G.setG B P (v' := { v with cGate := true }) hv rfl; exact ⟨h1, h2, ofG.mono h2 hg, nt, np⟩
  | gm3No d g v hv hc => exact same hg nt np
  | gm3 d g v hv hc => exact same hg nt np
  | gm4No d g v hd hc => exact same hg nt np
  | gm4 d g v hd hc => exact same hg nt np
  | gmOpenC d g ok v hv => obtain ⟨h1, h2⟩ := G.setG B P (v' := { v with cGate := false }) hv rfl; exact ⟨h1, h2, ofG.mono h2 hg, nt, np⟩
  | gmOpenD d g ok v hv =>
    obtain ⟨h1, h2⟩ := G.setG B P (v' := { v with dGate := false }) hv rfl
    exact ⟨h1, h2, trivial, nt, kpush (ofG.mono h2 hg)⟩
  | im0No d g v hv hc => exact same trivial nt (kpush hg)
  | im0 d g v hv hc => obtain ⟨h1, h2⟩ := G.setG B P (v' := { v with cGate := true }) hv rfl; exact ⟨h1, h2, ofG.mono h2 hg, nt, np⟩
  | im1No d g v hv hc => exact same hg nt np
  | im1 d g v hv hc => exact same hg nt np
  | im2No d g v hd hc => exact same hg nt np
  | im2 d g v hd hc =>
    refine ⟨G.withB P ev fun x hx1 hx2 => ?_, .withB ev, trivial, nt, np⟩
    have : x < a.b.sk.next := hx2
    omega
  | imOpen d g v hv =>
    obtain ⟨h1, h2⟩ := G.setG B P (v' := { v with cGate := false }) hv rfl
    exact ⟨h1, h2, trivial, nt, kpush (ofG.mono h2 hg)⟩
  | imFg0 g r acc => exact same trivial nt np
  | imKid c todo g r acc v hd hc =>
    refine ⟨G.withB P ev fun x hx1 hx2 => ?_, .withB ev, trivial, nt, np⟩
    have : x < a.b.sk.next := hx2
    omega
  | imKidNo c todo g r acc v hd hc => exact same trivial (ktask trivial) np
  | imVal w todo g r acc => exact same trivial (ktask trivial) np
  | imGate g r acc v hv =>
    obtain ⟨h1, h2⟩ := G.setG B P (v' := { v with cGate := false }) hv rfl; exact ⟨h1, h2, trivial, ktask trivial, np⟩
  | imOk r acc => exact same trivial nt (kpush trivial)
  | dg0C d g v hv hc => exact same trivial nt np
  | dg0O d g v hv hc => exact same trivial nt np
  | dg1 d g v hv => obtain ⟨h1, h2⟩ := G.setW B P (upd a.gW g (a.gW g + 1)); exact ⟨h1, h2, trivial, nt, kpush fun x hx => by cases hx; exact ⟨d, rfl, ofG.mono h2 (hbg _ hp)⟩⟩
  | upN => exact same trivial nt np
  | upNo d h => exact same trivial nt np
  | up d h hs e => obtain ⟨_, rfl⟩ := incS_some e; exact heap ev rfl nf nt np
  | wcN d => exact same trivial nt (kpush fun x hx => by cases hx)
  | wc d g h => obtain ⟨h1, h2⟩ := G.setW B P (upd a.gW g (a.gW g + 1)); exact ⟨h1, h2, trivial, nt, kpush (entG.mono h2 (hbg _ hp))⟩
  | wdN => exact same trivial nt np
  | wd g h => obtain ⟨h1, h2⟩ := G.setW B P (upd a.gW g (a.gW g - 1)); exact ⟨h1, h2, trivial, nt, np⟩

end
end Verif.Arc
