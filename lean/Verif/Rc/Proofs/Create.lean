import Verif.Rc.Proofs.Shape
/-!
# New objects keep the structure
-/

namespace Verif.Rc
open Verif.Spec (Side Slot Family Rng)

/-! ## Labels -/

namespace Lab

theorem up_refl (l : Lab) : l.up l := ⟨rfl, List.suffix_refl _⟩
theorem up_trans {a b c : Lab} (h1 : a.up b) (h2 : b.up c) : a.up c := ⟨h1.1.trans h2.1, h1.2.trans h2.2⟩
theorem up_child (l : Lab) (s : Side) : l.up (l.child s) := ⟨rfl, List.suffix_cons _ _⟩
theorem up_of_child {l m : Lab} {s : Side} (h : (l.child s).up m) : l.up m := up_trans (up_child l s) h

theorem up_len {l m : Lab} (h : l.up m) : l.path.length ≤ m.path.length := h.2.length_le

theorem not_child_up (l : Lab) (s : Side) : ¬ (l.child s).up l := by
  intro h; have := up_len h; simp only [child, List.length_cons] at this; omega

theorem child_inj {l m : Lab} {s t : Side} (h : l.child s = m.child t) : l = m ∧ s = t := by
  cases l; cases m; simp [child] at h; simp [h]

theorem up_child_iff {l m : Lab} {s : Side} : l.up (m.child s) ↔ l = m.child s ∨ l.up m := by
  cases l; cases m
  simp only [up, child, mk.injEq, List.suffix_cons_iff]
  constructor
  · rintro ⟨rfl, h | h⟩
    · exact .inl ⟨rfl, h⟩
    · exact .inr ⟨rfl, h⟩
  · rintro (⟨rfl, h⟩ | ⟨rfl, h⟩)
    · exact ⟨rfl, .inl h⟩
    · exact ⟨rfl, .inr h⟩

/-- Either the same, or strictly below on one side. -/
theorem up_cases {l m : Lab} (h : l.up m) : l = m ∨ ∃ s, (l.child s).up m := by
  obtain ⟨lf, lp⟩ := l; obtain ⟨mf, mp⟩ := m
  obtain ⟨h1, t, h2⟩ := h
  simp only at h1 h2; subst h1 h2
  rcases List.eq_nil_or_concat t with rfl | ⟨t, s, rfl⟩
  · exact .inl rfl
  · exact .inr ⟨s, rfl, t, by simp [child]⟩

theorem up_antisymm {l m : Lab} (h1 : l.up m) (h2 : m.up l) : l = m := by
  rcases up_cases h1 with h | ⟨s, h⟩
  · exact h
  · exact absurd (up_trans h h2) (not_child_up l s)

theorem up_total {l m n : Lab} (h1 : l.up n) (h2 : m.up n) : l.up m ∨ m.up l := by
  rcases List.suffix_or_suffix_of_suffix h1.2 h2.2 with h | h
  · exact .inl ⟨h1.1.trans h2.1.symm, h⟩
  · exact .inr ⟨h2.1.trans h1.1.symm, h⟩

theorem child_ne (l : Lab) (s : Side) : l.child s ≠ l := by
  intro h; have := congrArg (fun l => l.path.length) h; simp [child] at this

end Lab

theorem shr1' (n : Nat) : n >>> 1 = n / 2 := by rw [Nat.shiftRight_eq_div_pow]

theorem DataV.sub_rng (v : DataV) (s : Side) : Rng.mk (v.subOff s) (v.subLen s) = (Rng.mk v.off v.len).half s := by
  cases s <;> simp [DataV.subOff, DataV.subLen, Rng.half, Rng.left, Rng.right, shr1']

theorem DataV.subLen_le (v : DataV) (s : Side) : v.subLen s ≤ v.len := by
  cases s <;> simp only [DataV.subLen, shr1'] <;> omega

theorem DataV.setKid_kids (v : DataV) (s t : Side) (c : Nat) :
    (v.setKid s c).kids t = if t = s then some c else v.kids t := rfl
theorem ImgV.setKid_kids (v : ImgV) (s t : Side) (c : Nat) :
    (v.setKid s c).kids t = if t = s then some c else v.kids t := rfl
theorem GmgV.setKid_kids (v : GmgV) (s t : Side) (c : Nat) :
    (v.setKid s c).kids t = if t = s then some c else v.kids t := rfl

variable {k : Skel}

/-- The value of the child made by `clone_child`. -/
def DataV.kid (v : DataV) (s : Side) : DataV :=
  ⟨v.buf, v.subOff s, v.subLen s, if v.subLen s = 0 then none else v.alloc, noKids⟩

theorem Shape.dataChild (S : Shape k) {d : Nat} {v : DataV} {s : Side} (hd : k.node d = some (.data v))
    (hk : v.kids s = none) :
    Shape ((k.add (.data (v.kid s)) ((k.lab d).child s)).set d (.data (v.setKid s k.next))) := by
  have B := S.toBase
  have hlt := B.lt hd
  have hne : d ≠ k.next := by omega
  have hadd : ∀ x m, (k.add (.data (v.kid s)) ((k.lab d).child s)).node x = some m ↔ _ := fun x m => add_iff B
  have B1 := B.add (.data (v.kid s)) ((k.lab d).child s) (fun _ => B.fam_data hd (by simp [Node.kind]))
  have hd1 : (k.add (.data (v.kid s)) ((k.lab d).child s)).node d = some (.data v) := (hadd _ _).2 (.inr hd)
  have g := (Grow.add k (.data (v.kid s)) ((k.lab d).child s)).trans
    (Grow.set _ d (.data (v.setKid s k.next)))
  generalize hk' : (k.add (.data (v.kid s)) ((k.lab d).child s)).set d (.data (v.setKid s k.next)) = k' at *
  have hnode : ∀ x m, k'.node x = some m ↔ (x = d ∧ m = .data (v.setKid s k.next)) ∨
      (x = k.next ∧ m = .data (v.kid s)) ∨ (x ≠ d ∧ k.node x = some m) := by
    intro x m; subst hk'
    rw [set_iff, hadd]
    constructor
    · rintro (h | ⟨h1, h2 | h2⟩)
      · exact .inl h
      · exact .inr (.inl h2)
      · exact .inr (.inr ⟨h1, h2⟩)
    · rintro (h | h | h)
      · exact .inl h
      · exact .inr ⟨by omega, .inl h⟩
      · exact .inr ⟨h.1, .inr h.2⟩
  have hlabN : k'.lab k.next = (k.lab d).child s := by subst hk'; exact upd_same _ _ _
  have hmem : k'.mem = k.mem := by subst hk'; rfl
  have hz : k'.zst = k.zst := g.zst
  have hother : ∀ x m, m.kind ≠ .data → (k'.node x = some m ↔ k.node x = some m) := by
    intro x m hm
    rw [hnode]
    constructor
    · rintro (⟨_, h⟩ | ⟨_, h⟩ | h)
      · subst h; exact absurd rfl hm
      · subst h; exact absurd rfl hm
      · exact h.2
    · intro h
      refine .inr (.inr ⟨?_, h⟩)
      rintro rfl; rw [hd] at h; cases h; exact hm rfl
  have hdata : ∀ x w, k'.node x = some (.data w) → (x = d ∧ w = v.setKid s k.next) ∨
      (x = k.next ∧ w = v.kid s) ∨ (x ≠ d ∧ x < k.next ∧ k.node x = some (.data w)) := by
    intro x w h
    rcases (hnode _ _).1 h with ⟨h1, h2⟩ | ⟨h1, h2⟩ | ⟨h1, h2⟩
    · cases h2; exact .inl ⟨h1, rfl⟩
    · cases h2; exact .inr (.inl ⟨h1, rfl⟩)
    · exact .inr (.inr ⟨h1, B.lt h2, h2⟩)
  have hB : Base k' := by subst hk'; exact B1.set hd1 rfl
  -- no data at the child's label yet
  have hnew : ∀ y w, k.node y = some (.data w) → ¬ ((k.lab d).child s).up (k.lab y) := by
    intro y w hy h
    have := S.dataDown d v y w s hd hy h
    rw [hk] at this; cases this
  have hlabd : k'.lab d = k.lab d := g.lab d hlt
  have hfam : (k.lab d).fam < k.nfam := B.fam_data hd (by simp [Node.kind])
  refine { toBase := hB, toDShape := ?_, toIShape := ?_, toGShape := ?_, toAShape := ?_ }
  · have ⟨f1, f2, f3⟩ := S.dataFam d v hd
    constructor
    · intro x w h
      rcases hdata x w h with ⟨rfl, rfl⟩ | ⟨rfl, rfl⟩ | ⟨_, hx, h⟩
      · rw [hlabd, g.fams _ hfam]; exact ⟨f1, f2, f3⟩
      · rw [hlabN]
        show _ = (k'.fams (k.lab d).fam).buf ∧ _ = ((k'.fams (k.lab d).fam).rng.at (s :: (k.lab d).path)) ∧ _ =
          ((k'.fams (k.lab d).fam).holds && ((s :: (k.lab d).path).isEmpty || _))
        rw [g.fams _ hfam]
        refine ⟨f1, ?_, ?_⟩
        · simp only [Rng.at, ← f2, DataV.kid]; exact v.sub_rng s
        · simp only [DataV.kid, List.isEmpty_cons, Bool.false_or]
          by_cases h0 : v.subLen s = 0
          · simp [h0]
          · have := v.subLen_le s
            rw [if_neg h0, f3]
            have h1 : decide (0 < v.len) = true := by simp; omega
            have h2 : decide (0 < v.subLen s) = true := by simp; omega
            rw [h1]; show _ = (_ && decide (0 < v.subLen s)); rw [h2]; simp
      · rw [g.lab x hx, g.fams _ (B.fam_data h (by simp [Node.kind]))]; exact S.dataFam x w h
    · intro x w a h e
      rw [hother _ _ (by simp [Node.kind])]
      rcases hdata x w h with ⟨rfl, rfl⟩ | ⟨rfl, rfl⟩ | ⟨_, hx, h⟩
      · exact S.dataAlloc _ v a hd e
      · simp only [DataV.kid] at e ⊢
        split at e
        · cases e
        · exact S.dataAlloc d v a hd e
      · exact S.dataAlloc x w a h e
    · intro x w h hlen e
      rw [hz]
      rcases hdata x w h with ⟨rfl, rfl⟩ | ⟨rfl, rfl⟩ | ⟨_, hx, h⟩
      · exact S.dataMem _ v hd hlen e
      · have := v.subLen_le s
        simp only [DataV.kid] at e hlen
        rw [if_neg (by omega)] at e
        exact S.dataMem d v hd (by omega) e
      · exact S.dataMem x w h hlen e
    · intro x w t c h e
      rcases hdata x w h with ⟨rfl, rfl⟩ | ⟨rfl, rfl⟩ | ⟨_, hx, h⟩
      · rw [DataV.setKid_kids] at e
        split at e
        · next ht => subst ht; cases e; rw [hlabN, hlabd]; exact ⟨hlt, rfl, _, (hnode _ _).2 (.inr (.inl ⟨rfl, rfl⟩))⟩
        · obtain ⟨a1, a2, vc, a3⟩ := S.dataKid _ v t c hd e
          rw [hlabd, g.lab c (B.lt a3)]
          exact ⟨a1, a2, vc, (hnode _ _).2 (.inr (.inr ⟨by omega, a3⟩))⟩
      · cases e
      · obtain ⟨a1, a2, vc, a3⟩ := S.dataKid x w t c h e
        rw [g.lab x hx, g.lab c (B.lt a3)]
        refine ⟨a1, a2, ?_⟩
        by_cases hcd : c = d
        · subst hcd; exact ⟨_, (hnode _ _).2 (.inl ⟨rfl, rfl⟩)⟩
        · exact ⟨_, (hnode _ _).2 (.inr (.inr ⟨hcd, a3⟩))⟩
    · intro x w y u h1 h2 e
      rcases hdata x w h1 with ⟨rfl, rfl⟩ | ⟨rfl, rfl⟩ | ⟨n1, x1, h1⟩ <;>
        rcases hdata y u h2 with ⟨rfl, rfl⟩ | ⟨rfl, rfl⟩ | ⟨n2, x2, h2⟩
      · rfl
      · rw [hlabN, hlabd] at e; exact absurd e.symm (Lab.child_ne _ _)
      · rw [hlabd, g.lab y x2] at e; exact S.dataUniq _ _ _ _ hd h2 e
      · rw [hlabN, hlabd] at e; exact absurd e (Lab.child_ne _ _)
      · rfl
      · rw [hlabN, g.lab y x2] at e; exact absurd (e ▸ Lab.up_refl _) (hnew y u h2)
      · rw [hlabd, g.lab x x1] at e; exact S.dataUniq _ _ _ _ h1 hd e
      · rw [hlabN, g.lab x x1] at e; exact absurd (e ▸ Lab.up_refl _) (hnew x w h1)
      · rw [g.lab x x1, g.lab y x2] at e; exact S.dataUniq _ _ _ _ h1 h2 e
    · intro q w x u t h1 h2 e
      rcases hdata q w h1 with ⟨rfl, rfl⟩ | ⟨rfl, rfl⟩ | ⟨n1, x1, h1⟩ <;>
        rcases hdata x u h2 with ⟨rfl, rfl⟩ | ⟨rfl, rfl⟩ | ⟨n2, x2, h2⟩
      · exact absurd e (Lab.not_child_up _ _)
      · rw [hlabN, hlabd, Lab.up_child_iff] at e
        rcases e with e | e
        · have := (Lab.child_inj e).2; subst this
          rw [DataV.setKid_kids, if_pos rfl]; rfl
        · exact absurd e (Lab.not_child_up _ _)
      · rw [hlabd, g.lab x x2] at e
        have := S.dataDown _ v x u t hd h2 e
        rw [DataV.setKid_kids]; split <;> simp [this]
      · rw [hlabN, hlabd] at e
        exact absurd (Lab.up_of_child e) (Lab.not_child_up _ _)
      · exact absurd e (Lab.not_child_up _ _)
      · rw [hlabN, g.lab x x2] at e
        exact absurd (Lab.up_of_child e) (hnew x u h2)
      · rw [hlabd, g.lab q x1] at e
        exact S.dataDown q w _ v t h1 hd e
      · rw [hlabN, g.lab q x1, Lab.up_child_iff] at e
        rcases e with e | e
        · have := S.dataUniq _ _ _ _ h1 hd (Lab.child_inj e).1; exact absurd this n1
        · exact S.dataDown q w _ v t h1 hd e
      · rw [g.lab q x1, g.lab x x2] at e
        exact S.dataDown q w x u t h1 h2 e
  · exact S.toIShape.frame B g (fun x v => hother x _ (by simp [Node.kind]))
      (fun x v h => ⟨v, (hother x _ (by simp [Node.kind])).2 h⟩)
  · exact S.toGShape.frame B g (fun x v => hother x _ (by simp [Node.kind]))
      (fun x v h => ⟨v, (hother x _ (by simp [Node.kind])).1 h⟩)
  · exact S.toAShape.frame g (fun x v => hother x _ (by simp [Node.kind])) hmem


theorem Shape.gmgChild (S : Shape k) {g : Nat} {v : GmgV} {s : Side} (hg : k.node g = some (.gmg v))
    (hk : ∀ c, v.kids s = some c → k.node c = none) :
    Shape ((k.add (.gmg ⟨some (g, s), noKids, none⟩) ((k.lab g).child s)).set g (.gmg (v.setKid s k.next))) := by
  have B := S.toBase
  have hlt := B.lt hg
  have hne : g ≠ k.next := by omega
  generalize hn : (Node.gmg ⟨some (g, s), noKids, none⟩) = n
  have hadd : ∀ x m, (k.add n ((k.lab g).child s)).node x = some m ↔ _ := fun x m => add_iff B
  have hfam : (k.lab g).fam < k.nfam := B.fam_data hg (by simp [Node.kind])
  have B1 := B.add n ((k.lab g).child s) (fun _ => hfam)
  have hg1 : (k.add n ((k.lab g).child s)).node g = some (.gmg v) := (hadd _ _).2 (.inr hg)
  have gr := (Grow.add k n ((k.lab g).child s)).trans (Grow.set _ g (.gmg (v.setKid s k.next)))
  generalize hk' : (k.add n ((k.lab g).child s)).set g (.gmg (v.setKid s k.next)) = k' at *
  have hnode : ∀ x m, k'.node x = some m ↔ (x = g ∧ m = .gmg (v.setKid s k.next)) ∨
      (x = k.next ∧ m = n) ∨ (x ≠ g ∧ k.node x = some m) := by
    intro x m; subst hk'
    rw [set_iff, hadd]
    constructor
    · rintro (h | ⟨h1, h2 | h2⟩)
      · exact .inl h
      · exact .inr (.inl h2)
      · exact .inr (.inr ⟨h1, h2⟩)
    · rintro (h | h | h)
      · exact .inl h
      · exact .inr ⟨by omega, .inl h⟩
      · exact .inr ⟨h.1, .inr h.2⟩
  have hlabN : k'.lab k.next = (k.lab g).child s := by subst hk'; exact upd_same _ _ _
  have hkindN : k'.kind k.next = .gmg := by subst hk'; subst hn; exact upd_same _ _ _
  have hnextN : k'.next = k.next + 1 := by subst hk'; rfl
  have hmem : k'.mem = k.mem := by subst hk'; rfl
  have hB : Base k' := by subst hk'; exact B1.set hg1 rfl
  clear B1 hg1 hadd
  subst hn
  have hother : ∀ x m, m.kind ≠ .gmg → (k'.node x = some m ↔ k.node x = some m) := by
    intro x m hm
    rw [hnode]
    constructor
    · rintro (⟨_, h⟩ | ⟨_, h⟩ | h)
      · subst h; exact absurd rfl hm
      · subst h; exact absurd rfl hm
      · exact h.2
    · intro h
      refine .inr (.inr ⟨?_, h⟩)
      rintro rfl; rw [hg] at h; cases h; exact hm rfl
  have hgm : ∀ x w, k'.node x = some (.gmg w) → (x = g ∧ w = v.setKid s k.next) ∨
      (x = k.next ∧ w = ⟨some (g, s), noKids, none⟩) ∨ (x ≠ g ∧ x < k.next ∧ k.node x = some (.gmg w)) := by
    intro x w h
    rcases (hnode _ _).1 h with ⟨h1, h2⟩ | ⟨h1, h2⟩ | ⟨h1, h2⟩
    · cases h2; exact .inl ⟨h1, rfl⟩
    · cases h2; exact .inr (.inl ⟨h1, rfl⟩)
    · exact .inr (.inr ⟨h1, B.lt h2, h2⟩)
  -- nothing at the child's label yet
  have hnew : ∀ y w, k.node y = some (.gmg w) → k.lab y ≠ (k.lab g).child s := by
    intro y w hy h
    have := hk y (S.gmgDown g v y w s hg hy h)
    rw [hy] at this; cases this
  have hnewI : ∀ y w, k.node y = some (.img w) → k.lab y ≠ (k.lab g).child s := by
    intro y w hy h
    obtain ⟨h1, vg, h2⟩ := S.imgGmg y w hy
    exact hnew _ _ h2 (h1.trans h)
  have hlabg : k'.lab g = k.lab g := gr.lab g hlt
  have keep : ∀ y w, k.node y = some (.gmg w) → ∃ w', k'.node y = some (.gmg w') := by
    intro y w hy
    by_cases e : y = g
    · exact ⟨_, (hnode _ _).2 (.inl ⟨e, rfl⟩)⟩
    · exact ⟨_, (hnode _ _).2 (.inr (.inr ⟨e, hy⟩))⟩
  refine { toBase := hB, toDShape := ?_, toIShape := ?_, toGShape := ?_, toAShape := ?_ }
  · exact S.toDShape.frame B gr (fun x v => hother x _ (by simp [Node.kind]))
      (fun x v h => (hother x _ (by simp [Node.kind])).2 h)
  · exact S.toIShape.frame B gr (fun x v => hother x _ (by simp [Node.kind])) keep
  · constructor
    · intro x w h e
      rcases hgm x w h with ⟨rfl, rfl⟩ | ⟨rfl, rfl⟩ | ⟨_, hx, h⟩
      · rw [hlabg]; exact S.gmgRoot _ v hg e
      · cases e
      · rw [gr.lab x hx]; exact S.gmgRoot x w h e
    · intro x w y t h e
      rcases hgm x w h with ⟨rfl, rfl⟩ | ⟨rfl, rfl⟩ | ⟨_, hx, h⟩
      · obtain ⟨a1, a2, vy, a3⟩ := S.gmgPar _ v y t hg e
        rw [hlabg, gr.lab y (B.lt a3)]; exact ⟨a1, a2, keep _ _ a3⟩
      · cases e; rw [hlabN, hlabg]; exact ⟨hlt, rfl, keep _ _ hg⟩
      · obtain ⟨a1, a2, vy, a3⟩ := S.gmgPar x w y t h e
        rw [gr.lab x hx, gr.lab y (B.lt a3)]; exact ⟨a1, a2, keep _ _ a3⟩
    · intro x w t c h e
      rcases hgm x w h with ⟨rfl, rfl⟩ | ⟨rfl, rfl⟩ | ⟨_, hx, h⟩
      · rw [GmgV.setKid_kids] at e
        split at e
        · next ht => subst ht; cases e; rw [hlabN, hlabg, hkindN]; exact ⟨rfl, rfl, by omega⟩
        · obtain ⟨a1, a2, a3⟩ := S.gmgKid _ v t c hg e
          rw [hlabg, gr.lab c a3, gr.kind c a3]; exact ⟨a1, a2, by omega⟩
      · cases e
      · obtain ⟨a1, a2, a3⟩ := S.gmgKid x w t c h e
        rw [gr.lab x hx, gr.lab c a3, gr.kind c a3]; exact ⟨a1, a2, by omega⟩
    · intro x w c h e
      rcases hgm x w h with ⟨rfl, rfl⟩ | ⟨rfl, rfl⟩ | ⟨_, hx, h⟩
      · obtain ⟨a1, a2, a3⟩ := S.gmgImg _ v c hg e
        rw [hlabg, gr.lab c a3, gr.kind c a3]; exact ⟨a1, a2, by omega⟩
      · cases e
      · obtain ⟨a1, a2, a3⟩ := S.gmgImg x w c h e
        rw [gr.lab x hx, gr.lab c a3, gr.kind c a3]; exact ⟨a1, a2, by omega⟩
    · intro x w y u h1 h2 e
      rcases hgm x w h1 with ⟨rfl, rfl⟩ | ⟨rfl, rfl⟩ | ⟨n1, x1, h1⟩ <;>
        rcases hgm y u h2 with ⟨rfl, rfl⟩ | ⟨rfl, rfl⟩ | ⟨n2, x2, h2⟩
      · rfl
      · rw [hlabN, hlabg] at e; exact absurd e.symm (Lab.child_ne _ _)
      · rw [hlabg, gr.lab y x2] at e; exact S.gmgUniq _ _ _ _ hg h2 e
      · rw [hlabN, hlabg] at e; exact absurd e (Lab.child_ne _ _)
      · rfl
      · rw [hlabN, gr.lab y x2] at e; exact absurd e.symm (hnew y u h2)
      · rw [hlabg, gr.lab x x1] at e; exact S.gmgUniq _ _ _ _ h1 hg e
      · rw [hlabN, gr.lab x x1] at e; exact absurd e (hnew x w h1)
      · rw [gr.lab x x1, gr.lab y x2] at e; exact S.gmgUniq _ _ _ _ h1 h2 e
    · -- a live node below the new one would have a live parent at its label
      have nobelow : ∀ y u t, k.node y = some (.gmg u) → k.lab y ≠ ((k.lab g).child s).child t := by
        intro y u t hy e
        cases hp : u.parent with
        | none => have := S.gmgRoot y u hy hp; rw [e] at this; cases this
        | some p =>
          obtain ⟨a1, a2, vy, a3⟩ := S.gmgPar y u p.1 p.2 hy hp
          rw [e] at a2
          exact hnew _ _ a3 (Lab.child_inj a2).1.symm
      intro q w c u t h1 h2 e
      rcases hgm q w h1 with ⟨rfl, rfl⟩ | ⟨rfl, rfl⟩ | ⟨n1, x1, h1⟩ <;>
        rcases hgm c u h2 with ⟨rfl, rfl⟩ | ⟨rfl, rfl⟩ | ⟨n2, x2, h2⟩
      · exact absurd e.symm (Lab.child_ne _ _)
      · rw [hlabN, hlabg] at e
        have := (Lab.child_inj e).2; subst this
        rw [GmgV.setKid_kids, if_pos rfl]
      · rw [hlabg, gr.lab c x2] at e
        have := S.gmgDown _ v c u t hg h2 e
        rw [GmgV.setKid_kids]; split
        · next ht => subst ht; exact absurd e (hnew c u h2)
        · exact this
      · rw [hlabN, hlabg] at e
        have := congrArg (fun l => l.path.length) e
        simp only [Lab.child, List.length_cons] at this; omega
      · exact absurd e.symm (Lab.child_ne _ _)
      · rw [hlabN, gr.lab c x2] at e; exact absurd e (nobelow c u t h2)
      · rw [hlabg, gr.lab q x1] at e; exact S.gmgDown _ _ _ _ _ h1 hg e
      · rw [hlabN, gr.lab q x1] at e
        exact absurd (S.gmgUniq _ _ _ _ hg h1 (Lab.child_inj e).1).symm n1
      · rw [gr.lab q x1, gr.lab c x2] at e; exact S.gmgDown _ _ _ _ _ h1 h2 e
    · intro x w i u h1 h2 e
      replace h2 := (hother _ _ (by simp [Node.kind])).1 h2
      rw [gr.lab i (B.lt h2)] at e
      rcases hgm x w h1 with ⟨rfl, rfl⟩ | ⟨rfl, rfl⟩ | ⟨n1, x1, h1⟩
      · rw [hlabg] at e; exact S.gmgBack _ v i u hg h2 e
      · rw [hlabN] at e; exact absurd e (hnewI i u h2)
      · rw [gr.lab x x1] at e; exact S.gmgBack _ _ i u h1 h2 e
  · exact S.toAShape.frame gr (fun x v => hother x _ (by simp [Node.kind])) hmem

/-- A new `into_mut` guard for the `get_mut` guard `gc`, below the guard `i`. -/
theorem Shape.imgChild (S : Shape k) {i gc : Nat} {v : ImgV} {vg : GmgV} {s : Side} (hi : k.node i = some (.img v))
    (hk : ∀ c, v.kids s = some c → k.node c = none) (hg : k.node gc = some (.gmg vg))
    (hl : k.lab gc = (k.lab i).child s) :
    Shape (((k.add (.img ⟨some i, noKids, gc⟩) ((k.lab i).child s)).set gc (.gmg { vg with img := some k.next })).set i
      (.img (v.setKid s k.next))) := by
  have B := S.toBase
  have hlti := B.lt hi
  have hltg := B.lt hg
  have hig : i ≠ gc := by rintro rfl; rw [hi] at hg; cases hg
  generalize hn : (Node.img ⟨some i, noKids, gc⟩) = n
  have hadd : ∀ x m, (k.add n ((k.lab i).child s)).node x = some m ↔ _ := fun x m => add_iff B
  have hfam : (k.lab i).fam < k.nfam := B.fam_data hi (by simp [Node.kind])
  have B1 := B.add n ((k.lab i).child s) (fun _ => hfam)
  have hg1 : (k.add n ((k.lab i).child s)).node gc = some (.gmg vg) := (hadd _ _).2 (.inr hg)
  have hi1 : ((k.add n ((k.lab i).child s)).set gc (.gmg { vg with img := some k.next })).node i = some (.img v) :=
    set_iff.2 (.inr ⟨hig, (hadd _ _).2 (.inr hi)⟩)
  have gr := ((Grow.add k n ((k.lab i).child s)).trans (Grow.set _ gc (.gmg { vg with img := some k.next }))).trans
    (Grow.set _ i (.img (v.setKid s k.next)))
  generalize hk' : ((k.add n ((k.lab i).child s)).set gc (.gmg { vg with img := some k.next })).set i
      (.img (v.setKid s k.next)) = k' at *
  have hnode : ∀ x m, k'.node x = some m ↔ (x = i ∧ m = .img (v.setKid s k.next)) ∨
      (x = gc ∧ m = .gmg { vg with img := some k.next }) ∨ (x = k.next ∧ m = n) ∨
      (x ≠ i ∧ x ≠ gc ∧ k.node x = some m) := by
    intro x m; subst hk'
    rw [set_iff, set_iff, hadd]
    constructor
    · rintro (h | ⟨h1, h2 | ⟨h2, h3 | h3⟩⟩)
      · exact .inl h
      · exact .inr (.inl h2)
      · exact .inr (.inr (.inl h3))
      · exact .inr (.inr (.inr ⟨h1, h2, h3⟩))
    · rintro (h | h | h | h)
      · exact .inl h
      · exact .inr ⟨by omega, .inl h⟩
      · exact .inr ⟨by omega, .inr ⟨by omega, .inl h⟩⟩
      · exact .inr ⟨h.1, .inr ⟨h.2.1, .inr h.2.2⟩⟩
  have hlabN : k'.lab k.next = (k.lab i).child s := by subst hk'; exact upd_same _ _ _
  have hkindN : k'.kind k.next = .img := by subst hk'; subst hn; exact upd_same _ _ _
  have hnextN : k'.next = k.next + 1 := by subst hk'; rfl
  have hmem : k'.mem = k.mem := by subst hk'; rfl
  have hB : Base k' := by subst hk'; exact (B1.set (n' := .gmg { vg with img := some k.next }) hg1 rfl).set hi1 rfl
  clear B1 hg1 hadd hi1
  subst hn
  have hother : ∀ x m, m.kind ≠ .gmg → m.kind ≠ .img → (k'.node x = some m ↔ k.node x = some m) := by
    intro x m hm hm2
    rw [hnode]
    constructor
    · rintro (⟨_, h⟩ | ⟨_, h⟩ | ⟨_, h⟩ | h)
      · subst h; exact absurd rfl hm2
      · subst h; exact absurd rfl hm
      · subst h; exact absurd rfl hm2
      · exact h.2.2
    · intro h
      refine .inr (.inr (.inr ⟨?_, ?_, h⟩))
      · rintro rfl; rw [hi] at h; cases h; exact hm2 rfl
      · rintro rfl; rw [hg] at h; cases h; exact hm rfl
  have him : ∀ x w, k'.node x = some (.img w) → (x = i ∧ w = v.setKid s k.next) ∨
      (x = k.next ∧ w = ⟨some i, noKids, gc⟩) ∨ (x ≠ i ∧ x < k.next ∧ k.node x = some (.img w)) := by
    intro x w h
    rcases (hnode _ _).1 h with ⟨h1, h2⟩ | ⟨h1, h2⟩ | ⟨h1, h2⟩ | ⟨h1, _, h2⟩
    · cases h2; exact .inl ⟨h1, rfl⟩
    · cases h2
    · cases h2; exact .inr (.inl ⟨h1, rfl⟩)
    · exact .inr (.inr ⟨h1, B.lt h2, h2⟩)
  have hgm : ∀ x w, k'.node x = some (.gmg w) → ∃ w0, x < k.next ∧ k.node x = some (.gmg w0) ∧ w.parent = w0.parent ∧
      w.kids = w0.kids ∧ ((x = gc ∧ w.img = some k.next) ∨ (x ≠ gc ∧ w = w0)) := by
    intro x w h
    rcases (hnode _ _).1 h with ⟨h1, h2⟩ | ⟨h1, h2⟩ | ⟨h1, h2⟩ | ⟨h1, h3, h2⟩
    · cases h2
    · cases h2; subst h1; exact ⟨vg, hltg, hg, rfl, rfl, .inl ⟨rfl, rfl⟩⟩
    · cases h2
    · exact ⟨w, B.lt h2, h2, rfl, rfl, .inr ⟨h3, rfl⟩⟩
  have hnew : ∀ y w, k.node y = some (.img w) → k.lab y ≠ (k.lab i).child s := by
    intro y w hy h
    have := hk y (S.imgDown i v y w s hi hy h)
    rw [hy] at this; cases this
  have hlabi : k'.lab i = k.lab i := gr.lab i hlti
  have hlabg : k'.lab gc = (k.lab i).child s := (gr.lab gc hltg).trans hl
  have keepG : ∀ y w, k.node y = some (.gmg w) → ∃ w', k'.node y = some (.gmg w') := by
    intro y w hy
    by_cases e : y = gc
    · exact ⟨_, (hnode _ _).2 (.inr (.inl ⟨e, rfl⟩))⟩
    · refine ⟨_, (hnode _ _).2 (.inr (.inr (.inr ⟨?_, e, hy⟩)))⟩
      rintro rfl; rw [hi] at hy; cases hy
  have keepI : ∀ y w, k.node y = some (.img w) → ∃ w', k'.node y = some (.img w') := by
    intro y w hy
    by_cases e : y = i
    · exact ⟨_, (hnode _ _).2 (.inl ⟨e, rfl⟩)⟩
    · refine ⟨_, (hnode _ _).2 (.inr (.inr (.inr ⟨e, ?_, hy⟩)))⟩
      rintro rfl; rw [hg] at hy; cases hy
  refine { toBase := hB, toDShape := ?_, toIShape := ?_, toGShape := ?_, toAShape := ?_ }
  · exact S.toDShape.frame B gr (fun x v => hother x _ (by simp [Node.kind]) (by simp [Node.kind]))
      (fun x v h => (hother x _ (by simp [Node.kind]) (by simp [Node.kind])).2 h)
  · constructor
    · intro x w h e
      rcases him x w h with ⟨rfl, rfl⟩ | ⟨rfl, rfl⟩ | ⟨_, hx, h⟩
      · rw [hlabi]; exact S.imgRoot _ v hi e
      · cases e
      · rw [gr.lab x hx]; exact S.imgRoot x w h e
    · intro x w y h e
      rcases him x w h with ⟨rfl, rfl⟩ | ⟨rfl, rfl⟩ | ⟨_, hx, h⟩
      · obtain ⟨a1, a2, vy, a3⟩ := S.imgPar _ v y hi e
        rw [hlabi, gr.lab y (B.lt a3)]; exact ⟨a1, a2, keepI _ _ a3⟩
      · cases e; rw [hlabN, hlabi]; exact ⟨hlti, ⟨s, rfl⟩, keepI _ _ hi⟩
      · obtain ⟨a1, a2, vy, a3⟩ := S.imgPar x w y h e
        rw [gr.lab x hx, gr.lab y (B.lt a3)]; exact ⟨a1, a2, keepI _ _ a3⟩
    · intro x w h
      rcases him x w h with ⟨rfl, rfl⟩ | ⟨rfl, rfl⟩ | ⟨_, hx, h⟩
      · obtain ⟨a1, vy, a3⟩ := S.imgGmg _ v hi
        show k'.lab v.gmg = _ ∧ _
        rw [hlabi, gr.lab _ (B.lt a3)]; exact ⟨a1, keepG _ _ a3⟩
      · show k'.lab gc = _ ∧ _
        rw [hlabN, hlabg]; exact ⟨rfl, keepG _ _ hg⟩
      · obtain ⟨a1, vy, a3⟩ := S.imgGmg x w h
        rw [gr.lab x hx, gr.lab _ (B.lt a3)]; exact ⟨a1, keepG _ _ a3⟩
    · intro x w t c h e
      rcases him x w h with ⟨rfl, rfl⟩ | ⟨rfl, rfl⟩ | ⟨_, hx, h⟩
      · rw [ImgV.setKid_kids] at e
        split at e
        · next ht => subst ht; cases e; rw [hlabN, hlabi, hkindN]; exact ⟨rfl, rfl, by omega⟩
        · obtain ⟨a1, a2, a3⟩ := S.imgKid _ v t c hi e
          rw [hlabi, gr.lab c a3, gr.kind c a3]; exact ⟨a1, a2, by omega⟩
      · cases e
      · obtain ⟨a1, a2, a3⟩ := S.imgKid x w t c h e
        rw [gr.lab x hx, gr.lab c a3, gr.kind c a3]; exact ⟨a1, a2, by omega⟩
    · intro x w y u h1 h2 e
      rcases him x w h1 with ⟨rfl, rfl⟩ | ⟨rfl, rfl⟩ | ⟨n1, x1, h1⟩ <;>
        rcases him y u h2 with ⟨rfl, rfl⟩ | ⟨rfl, rfl⟩ | ⟨n2, x2, h2⟩
      · rfl
      · rw [hlabN, hlabi] at e; exact absurd e.symm (Lab.child_ne _ _)
      · rw [hlabi, gr.lab y x2] at e; exact S.imgUniq _ _ _ _ hi h2 e
      · rw [hlabN, hlabi] at e; exact absurd e (Lab.child_ne _ _)
      · rfl
      · rw [hlabN, gr.lab y x2] at e; exact absurd e.symm (hnew y u h2)
      · rw [hlabi, gr.lab x x1] at e; exact S.imgUniq _ _ _ _ h1 hi e
      · rw [hlabN, gr.lab x x1] at e; exact absurd e (hnew x w h1)
      · rw [gr.lab x x1, gr.lab y x2] at e; exact S.imgUniq _ _ _ _ h1 h2 e
    · have nobelow : ∀ y u t, k.node y = some (.img u) → k.lab y ≠ ((k.lab i).child s).child t := by
        intro y u t hy e
        cases hp : u.parent with
        | none => have := S.imgRoot y u hy hp; rw [e] at this; cases this
        | some p =>
          obtain ⟨a1, ⟨t', a2⟩, vy, a3⟩ := S.imgPar y u p hy hp
          rw [e] at a2
          exact hnew _ _ a3 (Lab.child_inj a2).1.symm
      intro q w c u t h1 h2 e
      rcases him q w h1 with ⟨rfl, rfl⟩ | ⟨rfl, rfl⟩ | ⟨n1, x1, h1⟩ <;>
        rcases him c u h2 with ⟨rfl, rfl⟩ | ⟨rfl, rfl⟩ | ⟨n2, x2, h2⟩
      · exact absurd e.symm (Lab.child_ne _ _)
      · rw [hlabN, hlabi] at e
        have := (Lab.child_inj e).2; subst this
        rw [ImgV.setKid_kids, if_pos rfl]
      · rw [hlabi, gr.lab c x2] at e
        have := S.imgDown _ v c u t hi h2 e
        rw [ImgV.setKid_kids]; split
        · next ht => subst ht; exact absurd e (hnew c u h2)
        · exact this
      · rw [hlabN, hlabi] at e
        have := congrArg (fun l => l.path.length) e
        simp only [Lab.child, List.length_cons] at this; omega
      · exact absurd e.symm (Lab.child_ne _ _)
      · rw [hlabN, gr.lab c x2] at e; exact absurd e (nobelow c u t h2)
      · rw [hlabi, gr.lab q x1] at e; exact S.imgDown _ _ _ _ _ h1 hi e
      · rw [hlabN, gr.lab q x1] at e
        exact absurd (S.imgUniq _ _ _ _ hi h1 (Lab.child_inj e).1).symm n1
      · rw [gr.lab q x1, gr.lab c x2] at e; exact S.imgDown _ _ _ _ _ h1 h2 e
  · constructor
    · intro x w h e
      obtain ⟨w0, hx, h0, hp, hkk, _⟩ := hgm x w h
      rw [gr.lab x hx]; exact S.gmgRoot x w0 h0 (hp ▸ e)
    · intro x w y t h e
      obtain ⟨w0, hx, h0, hp, hkk, _⟩ := hgm x w h
      obtain ⟨a1, a2, vy, a3⟩ := S.gmgPar x w0 y t h0 (hp ▸ e)
      rw [gr.lab x hx, gr.lab y (B.lt a3)]; exact ⟨a1, a2, keepG _ _ a3⟩
    · intro x w t c h e
      obtain ⟨w0, hx, h0, hp, hkk, _⟩ := hgm x w h
      obtain ⟨a1, a2, a3⟩ := S.gmgKid x w0 t c h0 (hkk ▸ e)
      rw [gr.lab x hx, gr.lab c a3, gr.kind c a3]; exact ⟨a1, a2, by omega⟩
    · intro x w c h e
      obtain ⟨w0, hx, h0, hp, hkk, ⟨rfl, h3⟩ | ⟨_, rfl⟩⟩ := hgm x w h
      · rw [h3] at e; cases e; rw [hlabN, hlabg, hkindN]; exact ⟨rfl, rfl, by omega⟩
      · obtain ⟨a1, a2, a3⟩ := S.gmgImg x w c h0 e
        rw [gr.lab x hx, gr.lab c a3, gr.kind c a3]; exact ⟨a1, a2, by omega⟩
    · intro x w y u h1 h2 e
      obtain ⟨w0, hx, h0, hp, hkk, _⟩ := hgm x w h1
      obtain ⟨u0, hy, h0', hp', hkk', _⟩ := hgm y u h2
      rw [gr.lab x hx, gr.lab y hy] at e; exact S.gmgUniq _ _ _ _ h0 h0' e
    · intro x w y u t h1 h2 e
      obtain ⟨w0, hx, h0, hp, hkk, _⟩ := hgm x w h1
      obtain ⟨u0, hy, h0', hp', hkk', _⟩ := hgm y u h2
      rw [gr.lab x hx, gr.lab y hy] at e; rw [hkk]; exact S.gmgDown _ _ _ _ _ h0 h0' e
    · intro x w j u h1 h2 e
      obtain ⟨w0, hx, h0, hp, hkk, h3⟩ := hgm x w h1
      rw [gr.lab x hx] at e
      rcases him j u h2 with ⟨rfl, rfl⟩ | ⟨rfl, rfl⟩ | ⟨n2, x2, h2⟩
      · rw [hlabi] at e
        have h4 := S.gmgBack _ _ _ _ h0 hi e
        rcases h3 with ⟨rfl, h3⟩ | ⟨_, rfl⟩
        · rw [hl] at e; exact absurd e.symm (Lab.child_ne _ _)
        · exact h4
      · rw [hlabN, ← hl] at e
        have := S.gmgUniq _ _ _ _ hg h0 e
        rcases h3 with ⟨_, h3⟩ | ⟨h3, rfl⟩
        · exact h3
        · exact absurd this.symm h3
      · rw [gr.lab j x2] at e
        have h4 := S.gmgBack _ _ _ _ h0 h2 e
        rcases h3 with ⟨rfl, h3⟩ | ⟨_, rfl⟩
        · rw [hl] at e; exact absurd e (hnew j u h2)
        · exact h4
  · exact S.toAShape.frame gr (fun x v => hother x _ (by simp [Node.kind]) (by simp [Node.kind])) hmem

/-- A new `into_mut` guard for a `get_mut` guard without parent. -/
theorem Shape.imgRootNew (S : Shape k) {g : Nat} {vg : GmgV} (hg : k.node g = some (.gmg vg))
    (hp : vg.parent = none) (hk : ∀ c, vg.img = some c → k.node c = none) :
    Shape ((k.add (.img ⟨none, noKids, g⟩) (k.lab g)).set g (.gmg { vg with img := some k.next })) := by
  have B := S.toBase
  have hltg := B.lt hg
  generalize hn : (Node.img ⟨none, noKids, g⟩) = n
  have hadd : ∀ x m, (k.add n (k.lab g)).node x = some m ↔ _ := fun x m => add_iff B
  have hfam : (k.lab g).fam < k.nfam := B.fam_data hg (by simp [Node.kind])
  have B1 := B.add n (k.lab g) (fun _ => hfam)
  have hg1 : (k.add n (k.lab g)).node g = some (.gmg vg) := (hadd _ _).2 (.inr hg)
  have gr := (Grow.add k n (k.lab g)).trans (Grow.set _ g (.gmg { vg with img := some k.next }))
  generalize hk' : (k.add n (k.lab g)).set g (.gmg { vg with img := some k.next }) = k' at *
  have hnode : ∀ x m, k'.node x = some m ↔ 
      (x = g ∧ m = .gmg { vg with img := some k.next }) ∨ (x = k.next ∧ m = n) ∨
      (x ≠ g ∧ k.node x = some m) := by
    intro x m; subst hk'
    rw [set_iff, hadd]
    constructor
    · rintro (h2 | ⟨h2, h3 | h3⟩)
      · exact (.inl h2)
      · exact (.inr (.inl h3))
      · exact (.inr (.inr ⟨h2, h3⟩))
    · rintro (h | h | h)
      · exact .inl h
      · exact .inr ⟨by omega, .inl h⟩
      · exact .inr ⟨h.1, .inr h.2⟩
  have hlabN : k'.lab k.next = k.lab g := by subst hk'; exact upd_same _ _ _
  have hkindN : k'.kind k.next = .img := by subst hk'; subst hn; exact upd_same _ _ _
  have hnextN : k'.next = k.next + 1 := by subst hk'; rfl
  have hmem : k'.mem = k.mem := by subst hk'; rfl
  have hB : Base k' := by subst hk'; exact (B1.set hg1 rfl)
  clear B1 hg1 hadd
  subst hn
  have hother : ∀ x m, m.kind ≠ .gmg → m.kind ≠ .img → (k'.node x = some m ↔ k.node x = some m) := by
    intro x m hm hm2
    rw [hnode]
    constructor
    · rintro (⟨_, h⟩ | ⟨_, h⟩ | h)
      · subst h; exact absurd rfl hm
      · subst h; exact absurd rfl hm2
      · exact h.2
    · intro h
      refine .inr (.inr ⟨?_, h⟩)
      · rintro rfl; rw [hg] at h; cases h; exact hm rfl
  have him : ∀ x w, k'.node x = some (.img w) → 
      (x = k.next ∧ w = ⟨none, noKids, g⟩) ∨ (x < k.next ∧ k.node x = some (.img w)) := by
    intro x w h
    rcases (hnode _ _).1 h with ⟨h1, h2⟩ | ⟨h1, h2⟩ | ⟨h1, h2⟩
    · cases h2
    · cases h2; exact (.inl ⟨h1, rfl⟩)
    · exact (.inr ⟨B.lt h2, h2⟩)
  have hgm : ∀ x w, k'.node x = some (.gmg w) → ∃ w0, x < k.next ∧ k.node x = some (.gmg w0) ∧ w.parent = w0.parent ∧
      w.kids = w0.kids ∧ ((x = g ∧ w.img = some k.next) ∨ (x ≠ g ∧ w = w0)) := by
    intro x w h
    rcases (hnode _ _).1 h with ⟨h1, h2⟩ | ⟨h1, h2⟩ | ⟨h1, h2⟩
    · cases h2; subst h1; exact ⟨vg, hltg, hg, rfl, rfl, .inl ⟨rfl, rfl⟩⟩
    · cases h2
    · exact ⟨w, B.lt h2, h2, rfl, rfl, .inr ⟨h1, rfl⟩⟩
  have hnew : ∀ y w, k.node y = some (.img w) → k.lab y ≠ k.lab g := by
    intro y w hy h
    have := hk y (S.gmgBack g vg y w hg hy h)
    rw [hy] at this; cases this
  have hlabg : k'.lab g = k.lab g := gr.lab g hltg
  have keepG : ∀ y w, k.node y = some (.gmg w) → ∃ w', k'.node y = some (.gmg w') := by
    intro y w hy
    by_cases e : y = g
    · exact ⟨_, (hnode _ _).2 (.inl ⟨e, rfl⟩)⟩
    · exact ⟨_, (hnode _ _).2 (.inr (.inr ⟨e, hy⟩))⟩
  have keepI : ∀ y w, k.node y = some (.img w) → k'.node y = some (.img w) := by
    intro y w hy
    refine (hnode _ _).2 (.inr (.inr ⟨?_, hy⟩))
    rintro rfl; rw [hg] at hy; cases hy
  have hroot := S.gmgRoot g vg hg hp
  refine { toBase := hB, toDShape := ?_, toIShape := ?_, toGShape := ?_, toAShape := ?_ }
  · exact S.toDShape.frame B gr (fun x v => hother x _ (by simp [Node.kind]) (by simp [Node.kind]))
      (fun x v h => (hother x _ (by simp [Node.kind]) (by simp [Node.kind])).2 h)
  · constructor
    · intro x w h e
      rcases him x w h with ⟨rfl, rfl⟩ | ⟨hx, h⟩
      · rw [hlabN]; exact hroot
      · rw [gr.lab x hx]; exact S.imgRoot x w h e
    · intro x w y h e
      rcases him x w h with ⟨rfl, rfl⟩ | ⟨hx, h⟩
      · cases e
      · obtain ⟨a1, a2, vy, a3⟩ := S.imgPar x w y h e
        rw [gr.lab x hx, gr.lab y (B.lt a3)]; exact ⟨a1, a2, _, keepI _ _ a3⟩
    · intro x w h
      rcases him x w h with ⟨rfl, rfl⟩ | ⟨hx, h⟩
      · show k'.lab g = _ ∧ _
        rw [hlabN, hlabg]; exact ⟨rfl, keepG _ _ hg⟩
      · obtain ⟨a1, vy, a3⟩ := S.imgGmg x w h
        rw [gr.lab x hx, gr.lab _ (B.lt a3)]; exact ⟨a1, keepG _ _ a3⟩
    · intro x w t c h e
      rcases him x w h with ⟨rfl, rfl⟩ | ⟨hx, h⟩
      · cases e
      · obtain ⟨a1, a2, a3⟩ := S.imgKid x w t c h e
        rw [gr.lab x hx, gr.lab c a3, gr.kind c a3]; exact ⟨a1, a2, by omega⟩
    · intro x w y u h1 h2 e
      rcases him x w h1 with ⟨rfl, rfl⟩ | ⟨x1, h1⟩ <;>
        rcases him y u h2 with ⟨rfl, rfl⟩ | ⟨x2, h2⟩
      · rfl
      · rw [hlabN, gr.lab y x2] at e; exact absurd e.symm (hnew y u h2)
      · rw [hlabN, gr.lab x x1] at e; exact absurd e (hnew x w h1)
      · rw [gr.lab x x1, gr.lab y x2] at e; exact S.imgUniq _ _ _ _ h1 h2 e
    · have nobelow : ∀ y u t, k.node y = some (.img u) → k.lab y ≠ (k.lab g).child t := by
        intro y u t hy e
        cases hp : u.parent with
        | none => have := S.imgRoot y u hy hp; rw [e] at this; cases this
        | some p =>
          obtain ⟨a1, ⟨t', a2⟩, vy, a3⟩ := S.imgPar y u p hy hp
          rw [e] at a2
          exact hnew _ _ a3 (Lab.child_inj a2).1.symm
      intro q w c u t h1 h2 e
      rcases him q w h1 with ⟨rfl, rfl⟩ | ⟨x1, h1⟩ <;>
        rcases him c u h2 with ⟨rfl, rfl⟩ | ⟨x2, h2⟩
      · exact absurd e.symm (Lab.child_ne _ _)
      · rw [hlabN, gr.lab c x2] at e; exact absurd e (nobelow c u t h2)
      · rw [hlabN] at e; rw [e] at hroot; cases hroot
      · rw [gr.lab q x1, gr.lab c x2] at e; exact S.imgDown _ _ _ _ _ h1 h2 e
  · constructor
    · intro x w h e
      obtain ⟨w0, hx, h0, hp, hkk, _⟩ := hgm x w h
      rw [gr.lab x hx]; exact S.gmgRoot x w0 h0 (hp ▸ e)
    · intro x w y t h e
      obtain ⟨w0, hx, h0, hp, hkk, _⟩ := hgm x w h
      obtain ⟨a1, a2, vy, a3⟩ := S.gmgPar x w0 y t h0 (hp ▸ e)
      rw [gr.lab x hx, gr.lab y (B.lt a3)]; exact ⟨a1, a2, keepG _ _ a3⟩
    · intro x w t c h e
      obtain ⟨w0, hx, h0, hp, hkk, _⟩ := hgm x w h
      obtain ⟨a1, a2, a3⟩ := S.gmgKid x w0 t c h0 (hkk ▸ e)
      rw [gr.lab x hx, gr.lab c a3, gr.kind c a3]; exact ⟨a1, a2, by omega⟩
    · intro x w c h e
      obtain ⟨w0, hx, h0, hp, hkk, ⟨rfl, h3⟩ | ⟨_, rfl⟩⟩ := hgm x w h
      · rw [h3] at e; cases e; rw [hlabN, hlabg, hkindN]; exact ⟨rfl, rfl, by omega⟩
      · obtain ⟨a1, a2, a3⟩ := S.gmgImg x w c h0 e
        rw [gr.lab x hx, gr.lab c a3, gr.kind c a3]; exact ⟨a1, a2, by omega⟩
    · intro x w y u h1 h2 e
      obtain ⟨w0, hx, h0, hp, hkk, _⟩ := hgm x w h1
      obtain ⟨u0, hy, h0', hp', hkk', _⟩ := hgm y u h2
      rw [gr.lab x hx, gr.lab y hy] at e; exact S.gmgUniq _ _ _ _ h0 h0' e
    · intro x w y u t h1 h2 e
      obtain ⟨w0, hx, h0, hp, hkk, _⟩ := hgm x w h1
      obtain ⟨u0, hy, h0', hp', hkk', _⟩ := hgm y u h2
      rw [gr.lab x hx, gr.lab y hy] at e; rw [hkk]; exact S.gmgDown _ _ _ _ _ h0 h0' e
    · intro x w j u h1 h2 e
      obtain ⟨w0, hx, h0, hp, hkk, h3⟩ := hgm x w h1
      rw [gr.lab x hx] at e
      rcases him j u h2 with ⟨rfl, rfl⟩ | ⟨x2, h2⟩
      · rw [hlabN] at e
        have := S.gmgUniq _ _ _ _ hg h0 e
        rcases h3 with ⟨_, h3⟩ | ⟨h3, rfl⟩
        · exact h3
        · exact absurd this.symm h3
      · rw [gr.lab j x2] at e
        have h4 := S.gmgBack _ _ _ _ h0 h2 e
        rcases h3 with ⟨rfl, h3⟩ | ⟨_, rfl⟩
        · exact absurd e (hnew j u h2)
        · exact h4
  · exact S.toAShape.frame gr (fun x v => hother x _ (by simp [Node.kind]) (by simp [Node.kind])) hmem

theorem add_lab_old (k : Skel) (n : Node) (l : Lab) {x : Nat} (h : x < k.next) : (k.add n l).lab x = k.lab x :=
  upd_ne _ _ (by omega)
theorem add_lab_new (k : Skel) (n : Node) (l : Lab) : (k.add n l).lab k.next = l := upd_same _ _ _

/-- A node whose references are valid is new and other kinds of nodes do not care. -/
theorem add_other (B : Base k) {n : Node} {l : Lab} {x : Nat} {m : Node} (h : m.kind ≠ n.kind) :
    (k.add n l).node x = some m ↔ k.node x = some m := by
  rw [add_iff B]
  constructor
  · rintro (⟨_, rfl⟩ | h)
    · exact absurd rfl h
    · assumption
  · exact .inr

/-- A family begins. -/
def Skel.famAdd (k : Skel) (f : Family) : Skel := { k with nfam := k.nfam + 1, fams := upd k.fams k.nfam f }

theorem Grow.famAdd (k : Skel) (f : Family) : Grow k (k.famAdd f) where
  zst := rfl
  next := Nat.le_refl _
  nbuf := Nat.le_refl _
  nfam := Nat.le_succ _
  lab _ _ := rfl
  kind _ _ := rfl
  fams x h := upd_ne _ _ (by omega)
  blen _ _ := rfl
  blenHi _ _ := rfl

theorem Shape.famAdd (S : Shape k) (f : Family) : Shape (k.famAdd f) where
  toBase := ⟨S.kinds, fun x h1 h2 => Nat.lt_succ_of_lt (S.famLt x h1 h2), S.fresh⟩
  toDShape := S.toDShape.frame S.toBase (.famAdd k f) (fun _ _ => Iff.rfl) (fun _ _ h => h)
  toIShape := S.toIShape.frame S.toBase (.famAdd k f) (fun _ _ => Iff.rfl) (fun _ v h => ⟨v, h⟩)
  toGShape := S.toGShape.frame S.toBase (.famAdd k f) (fun _ _ => Iff.rfl) (fun _ v h => ⟨v, h⟩)
  toAShape := S.toAShape.frame (.famAdd k f) (fun _ _ => Iff.rfl) rfl

/-- The first slice of a family. -/
theorem Shape.dataRoot (S : Shape k) {f : Nat} {v : DataV} (hf : f < k.nfam)
    (hno : ∀ x w, k.node x = some (.data w) → (k.lab x).fam ≠ f)
    (hb : v.buf = (k.fams f).buf) (hr : Rng.mk v.off v.len = (k.fams f).rng) (hh : v.alloc.isSome = (k.fams f).holds)
    (ha : ∀ a, v.alloc = some a → k.node a = some (.alloc v.buf)) (hz : 0 < v.len → v.alloc = none → k.zst = true)
    (hk : v.kids = noKids) :
    Shape (k.add (.data v) ⟨f, []⟩) := by
  have B := S.toBase
  have gr := Grow.add k (.data v) ⟨f, []⟩
  have hcase : ∀ x w, (k.add (.data v) ⟨f, []⟩).node x = some (.data w) →
      (x = k.next ∧ w = v) ∨ (x < k.next ∧ k.node x = some (.data w)) := by
    intro x w h
    rcases (add_iff B).1 h with ⟨h1, h2⟩ | h
    · cases h2; exact .inl ⟨h1, rfl⟩
    · exact .inr ⟨B.lt h, h⟩
  have hfs : ∀ f', (k.add (.data v) ⟨f, []⟩).fams f' = k.fams f' := fun _ => rfl
  refine { toBase := B.add _ _ fun _ => hf, toDShape := ?_, toIShape := ?_, toGShape := ?_, toAShape := ?_ }
  · constructor
    · intro x w h
      rcases hcase x w h with ⟨rfl, rfl⟩ | ⟨hx, h⟩
      · rw [add_lab_new, hfs]
        exact ⟨hb, hr, by simp [hh]⟩
      · rw [add_lab_old _ _ _ hx, hfs]; exact S.dataFam x w h
    · intro x w a h e
      rw [add_other B (by simp [Node.kind])]
      rcases hcase x w h with ⟨rfl, rfl⟩ | ⟨hx, h⟩
      · exact ha a e
      · exact S.dataAlloc x w a h e
    · intro x w h
      rcases hcase x w h with ⟨rfl, rfl⟩ | ⟨hx, h⟩
      · exact hz
      · exact S.dataMem x w h
    · intro x w t c h e
      rcases hcase x w h with ⟨rfl, rfl⟩ | ⟨hx, h⟩
      · rw [hk] at e; cases e
      · obtain ⟨a1, a2, vc, a3⟩ := S.dataKid x w t c h e
        rw [add_lab_old _ _ _ hx, add_lab_old _ _ _ (B.lt a3)]
        exact ⟨a1, a2, vc, (add_iff B).2 (.inr a3)⟩
    · intro x w y u h1 h2 e
      rcases hcase x w h1 with ⟨rfl, rfl⟩ | ⟨x1, g1⟩ <;> rcases hcase y u h2 with ⟨rfl, rfl⟩ | ⟨x2, g2⟩
      · rfl
      · rw [add_lab_new, add_lab_old _ _ _ x2] at e; exact absurd (by rw [← e]) (hno y u g2)
      · rw [add_lab_new, add_lab_old _ _ _ x1] at e; exact absurd (by rw [e]) (hno x w g1)
      · rw [add_lab_old _ _ _ x1, add_lab_old _ _ _ x2] at e; exact S.dataUniq _ _ _ _ g1 g2 e
    · intro x w y u t h1 h2 e
      rcases hcase x w h1 with ⟨rfl, rfl⟩ | ⟨x1, g1⟩ <;> rcases hcase y u h2 with ⟨rfl, rfl⟩ | ⟨x2, g2⟩
      · exact absurd e (Lab.not_child_up _ _)
      · rw [add_lab_new, add_lab_old _ _ _ x2] at e; exact absurd e.1.symm (hno y u g2)
      · rw [add_lab_new, add_lab_old _ _ _ x1] at e; exact absurd e.1 (hno x w g1)
      · rw [add_lab_old _ _ _ x1, add_lab_old _ _ _ x2] at e; exact S.dataDown _ _ _ _ _ g1 g2 e
  · exact S.toIShape.frame B gr (fun x w => add_other B (by simp [Node.kind]))
      (fun x w h => ⟨w, (add_other B (by simp [Node.kind])).2 h⟩)
  · exact S.toGShape.frame B gr (fun x w => add_other B (by simp [Node.kind]))
      (fun x w h => ⟨w, (add_other B (by simp [Node.kind])).1 h⟩)
  · exact S.toAShape.frame gr (fun x w => add_other B (by simp [Node.kind])) rfl

/-- The first `get_mut` guard of a family. -/
theorem Shape.gmgRootNew (S : Shape k) {f : Nat} (hf : f < k.nfam)
    (hno : ∀ x w, k.node x = some (.gmg w) → (k.lab x).fam ≠ f) :
    Shape (k.add (.gmg ⟨none, noKids, none⟩) ⟨f, []⟩) := by
  have B := S.toBase
  have gr := Grow.add k (.gmg ⟨none, noKids, none⟩) ⟨f, []⟩
  have hcase : ∀ x w, (k.add (.gmg ⟨none, noKids, none⟩) ⟨f, []⟩).node x = some (.gmg w) →
      (x = k.next ∧ w = ⟨none, noKids, none⟩) ∨ (x < k.next ∧ k.node x = some (.gmg w)) := by
    intro x w h
    rcases (add_iff B).1 h with ⟨h1, h2⟩ | h
    · cases h2; exact .inl ⟨h1, rfl⟩
    · exact .inr ⟨B.lt h, h⟩
  refine { toBase := B.add _ _ fun _ => hf, toDShape := ?_, toIShape := ?_, toGShape := ?_, toAShape := ?_ }
  · exact S.toDShape.frame B gr (fun x w => add_other B (by simp [Node.kind]))
      (fun x w h => (add_other B (by simp [Node.kind])).2 h)
  · exact S.toIShape.frame B gr (fun x w => add_other B (by simp [Node.kind]))
      (fun x w h => ⟨w, (add_iff B).2 (.inr h)⟩)
  · constructor
    · intro x w h e
      rcases hcase x w h with ⟨rfl, rfl⟩ | ⟨hx, h⟩
      · rw [add_lab_new]
      · rw [add_lab_old _ _ _ hx]; exact S.gmgRoot x w h e
    · intro x w y t h e
      rcases hcase x w h with ⟨rfl, rfl⟩ | ⟨hx, h⟩
      · cases e
      · obtain ⟨a1, a2, vy, a3⟩ := S.gmgPar x w y t h e
        rw [add_lab_old _ _ _ hx, add_lab_old _ _ _ (B.lt a3)]
        exact ⟨a1, a2, vy, (add_iff B).2 (.inr a3)⟩
    · intro x w t c h e
      rcases hcase x w h with ⟨rfl, rfl⟩ | ⟨hx, h⟩
      · cases e
      · obtain ⟨a1, a2, a3⟩ := S.gmgKid x w t c h e
        rw [gr.lab x hx, gr.lab c a3, gr.kind c a3]; exact ⟨a1, a2, Nat.lt_succ_of_lt a3⟩
    · intro x w c h e
      rcases hcase x w h with ⟨rfl, rfl⟩ | ⟨hx, h⟩
      · cases e
      · obtain ⟨a1, a2, a3⟩ := S.gmgImg x w c h e
        rw [gr.lab x hx, gr.lab c a3, gr.kind c a3]; exact ⟨a1, a2, Nat.lt_succ_of_lt a3⟩
    · intro x w y u h1 h2 e
      rcases hcase x w h1 with ⟨rfl, rfl⟩ | ⟨x1, h1⟩ <;> rcases hcase y u h2 with ⟨rfl, rfl⟩ | ⟨x2, h2⟩
      · rfl
      · rw [add_lab_new, add_lab_old _ _ _ x2] at e; exact absurd (by rw [← e]) (hno y u h2)
      · rw [add_lab_new, add_lab_old _ _ _ x1] at e; exact absurd (by rw [e]) (hno x w h1)
      · rw [add_lab_old _ _ _ x1, add_lab_old _ _ _ x2] at e; exact S.gmgUniq _ _ _ _ h1 h2 e
    · intro x w y u t h1 h2 e
      rcases hcase x w h1 with ⟨rfl, rfl⟩ | ⟨x1, h1⟩ <;> rcases hcase y u h2 with ⟨rfl, rfl⟩ | ⟨x2, h2⟩
      · exact absurd e.symm (Lab.child_ne _ _)
      · rw [add_lab_new, add_lab_old _ _ _ x2] at e; exact absurd (by rw [e]; rfl) (hno y u h2)
      · rw [add_lab_new, add_lab_old _ _ _ x1] at e; cases e
      · rw [add_lab_old _ _ _ x1, add_lab_old _ _ _ x2] at e; exact S.gmgDown _ _ _ _ _ h1 h2 e
    · intro x w i u h1 h2 e
      replace h2 := (add_other B (by simp [Node.kind])).1 h2
      rw [add_lab_old _ _ _ (B.lt h2)] at e
      rcases hcase x w h1 with ⟨rfl, rfl⟩ | ⟨x1, h1⟩
      · rw [add_lab_new] at e
        obtain ⟨h3, vg, h4⟩ := S.imgGmg i u h2
        exact absurd (by rw [h3, e]) (hno _ _ h4)
      · rw [add_lab_old _ _ _ x1] at e; exact S.gmgBack _ _ _ _ h1 h2 e
  · exact S.toAShape.frame gr (fun x w => add_other B (by simp [Node.kind])) rfl

/-- A buffer enters. -/
def Skel.bufAdd (k : Skel) (m : Bool) (n : Nat) : Skel :=
  { k with nbuf := k.nbuf + 1, mem := upd k.mem k.nbuf m, blen := upd k.blen k.nbuf n }

theorem Grow.bufAdd (k : Skel) (m : Bool) (n : Nat) : Grow k (k.bufAdd m n) where
  zst := rfl
  next := Nat.le_refl _
  nbuf := Nat.le_succ _
  nfam := Nat.le_refl _
  lab _ _ := rfl
  kind _ _ := rfl
  fams _ _ := rfl
  blen x h := upd_ne _ _ (by omega)
  blenHi x h := upd_ne _ _ (by simp only [Skel.bufAdd] at h; omega)

/-- A buffer without memory. -/
theorem Shape.bufAdd (S : Shape k) (n : Nat) : Shape (k.bufAdd false n) where
  toBase := ⟨S.kinds, S.famLt, S.fresh⟩
  toDShape := S.toDShape.frame S.toBase (.bufAdd k _ n) (fun _ _ => Iff.rfl) (fun _ _ h => h)
  toIShape := S.toIShape.frame S.toBase (.bufAdd k _ n) (fun _ _ => Iff.rfl) (fun _ v h => ⟨v, h⟩)
  toGShape := S.toGShape.frame S.toBase (.bufAdd k _ n) (fun _ _ => Iff.rfl) (fun _ v h => ⟨v, h⟩)
  toAShape := by
    have hm : ∀ b, (k.bufAdd false n).mem b = if b = k.nbuf then false else k.mem b := fun _ => rfl
    constructor
    · exact S.allocUniq
    · exact fun a b h => Nat.lt_succ_of_lt (S.allocLt a b h)
    · intro a b h hz
      rw [hm, if_neg (by have := S.allocLt a b h; omega)]; exact S.allocMem a b h hz
    · intro b h
      rw [hm] at h; split at h
      · cases h
      · exact S.memAlloc b h
    · intro b h
      rw [hm] at h; split at h
      · cases h
      · exact Nat.lt_succ_of_lt (S.memLt b h)
    · intro hz b
      rw [hm]; split; rfl; exact S.memZst hz b

/-- A buffer with its allocation object. -/
theorem Shape.bufAlloc (S : Shape k) (n : Nat) : Shape ((k.bufAdd (!k.zst) n).add (.alloc k.nbuf) ⟨0, []⟩) := by
  have B : Base (k.bufAdd (!k.zst) n) := ⟨S.kinds, S.famLt, S.fresh⟩
  have gr : Grow k ((k.bufAdd (!k.zst) n).add (.alloc k.nbuf) ⟨0, []⟩) := (Grow.bufAdd k _ n).trans (Grow.add _ _ _)
  have oth : ∀ {x m}, m.kind ≠ .alloc →
      (((k.bufAdd (!k.zst) n).add (.alloc k.nbuf) ⟨0, []⟩).node x = some m ↔ k.node x = some m) :=
    fun h => add_other B h
  refine { toBase := B.add _ _ (fun h => absurd rfl h), toDShape := ?_, toIShape := ?_, toGShape := ?_, toAShape := ?_ }
  · exact S.toDShape.frame S.toBase gr (fun x w => oth (by simp [Node.kind])) (fun _ _ h => (add_iff B).2 (.inr h))
  · exact S.toIShape.frame S.toBase gr (fun x w => oth (by simp [Node.kind]))
      (fun x w h => ⟨w, (oth (by simp [Node.kind])).2 h⟩)
  · exact S.toGShape.frame S.toBase gr (fun x w => oth (by simp [Node.kind]))
      (fun x w h => ⟨w, (oth (by simp [Node.kind])).1 h⟩)
  · have hm : ∀ b, ((k.bufAdd (!k.zst) n).add (.alloc k.nbuf) ⟨0, []⟩).mem b = if b = k.nbuf then !k.zst else k.mem b :=
      fun _ => rfl
    have hal : ∀ x b, ((k.bufAdd (!k.zst) n).add (.alloc k.nbuf) ⟨0, []⟩).node x = some (.alloc b) →
        (x = k.next ∧ b = k.nbuf) ∨ k.node x = some (.alloc b) := by
      intro x b h
      rcases (add_iff B).1 h with ⟨h1, h2⟩ | h
      · cases h2; exact .inl ⟨h1, rfl⟩
      · exact .inr h
    constructor
    · intro a a' b h1 h2
      rcases hal a b h1 with ⟨rfl, rfl⟩ | h1 <;> rcases hal a' _ h2 with ⟨rfl, h⟩ | h2
      · rfl
      · exact absurd (S.allocLt _ _ h2) (by omega)
      · subst h; exact absurd (S.allocLt _ _ h1) (by omega)
      · exact S.allocUniq _ _ _ h1 h2
    · intro a b h
      show b < k.nbuf + 1
      rcases hal a b h with ⟨rfl, rfl⟩ | h
      · omega
      · have := S.allocLt _ _ h; omega
    · intro a b h hz
      replace hz : k.zst = false := hz
      rw [hm]
      rcases hal a b h with ⟨rfl, rfl⟩ | h
      · simp [hz]
      · rw [if_neg (by have := S.allocLt a b h; omega)]; exact S.allocMem a b h hz
    · intro b h
      rw [hm] at h; split at h
      · next e => subst e; exact ⟨_, (add_iff B).2 (.inl ⟨rfl, rfl⟩)⟩
      · obtain ⟨a, h⟩ := S.memAlloc b h; exact ⟨a, (add_iff B).2 (.inr h)⟩
    · intro b h
      show b < k.nbuf + 1
      rw [hm] at h; split at h
      · omega
      · have := S.memLt b h; omega
    · intro hz b
      replace hz : k.zst = true := hz
      rw [hm]; split
      · simp [hz]
      · exact S.memZst hz b

/-- An allocation object nobody refers to disappears with its memory. -/
theorem Shape.killAlloc (S : Shape k) {x b : Nat} (hx : k.node x = some (.alloc b))
    (hr : ∀ y m, k.node y = some m → x ∉ m.srefs) :
    Shape { k with node := upd k.node x none, mem := upd k.mem b false } := by
  have hn : ∀ y m, upd k.node x none y = some m ↔ y ≠ x ∧ k.node y = some m := by
    intro y m
    constructor
    · exact upd_none_some
    · rintro ⟨h1, h2⟩; rw [upd_ne _ _ h1]; exact h2
  have gr : Grow k { k with node := upd k.node x none, mem := upd k.mem b false } :=
    ⟨rfl, Nat.le_refl _, Nat.le_refl _, Nat.le_refl _, fun _ _ => rfl, fun _ _ => rfl, fun _ _ => rfl, fun _ _ => rfl, fun _ _ => rfl⟩
  have oth : ∀ y m, m.kind ≠ .alloc → (upd k.node x none y = some m ↔ k.node y = some m) := by
    intro y m hm
    rw [hn]
    refine ⟨And.right, fun h => ⟨?_, h⟩⟩
    rintro rfl; rw [hx] at h; cases h; exact hm rfl
  refine { toBase := ⟨?_, S.famLt, ?_⟩, toDShape := ?_, toIShape := ?_, toGShape := ?_, toAShape := ?_ }
  · intro y m h; exact S.kinds y m ((hn y m).1 h).2
  · intro y hy
    show upd k.node x none y = none
    simp only [upd]; split; rfl; exact S.fresh y hy
  · constructor
    · intro y v h; exact S.dataFam y v ((hn _ _).1 h).2
    · intro y v a h e
      replace h := ((hn _ _).1 h).2
      refine (hn _ _).2 ⟨?_, S.dataAlloc y v a h e⟩
      rintro rfl; exact hr y _ h (by simp [Node.srefs, e])
    · intro y v h; exact S.dataMem y v ((hn _ _).1 h).2
    · intro y v s c h e
      obtain ⟨a1, a2, vc, a3⟩ := S.dataKid y v s c ((hn _ _).1 h).2 e
      exact ⟨a1, a2, vc, (oth _ _ (by simp [Node.kind])).2 a3⟩
    · intro y v z w h1 h2; exact S.dataUniq y v z w ((hn _ _).1 h1).2 ((hn _ _).1 h2).2
    · intro y v z w s h1 h2; exact S.dataDown y v z w s ((hn _ _).1 h1).2 ((hn _ _).1 h2).2
  · exact S.toIShape.frame S.toBase gr (fun y w => oth y _ (by simp [Node.kind]))
      (fun y w h => ⟨w, (oth y _ (by simp [Node.kind])).2 h⟩)
  · exact S.toGShape.frame S.toBase gr (fun y w => oth y _ (by simp [Node.kind]))
      (fun y w h => ⟨w, (oth y _ (by simp [Node.kind])).1 h⟩)
  · have hm : ∀ b', upd k.mem b false b' = true → b' ≠ b ∧ k.mem b' = true := by
      intro b' h
      by_cases e : b' = b
      · subst e; rw [upd_same] at h; cases h
      · rw [upd_ne _ _ e] at h; exact ⟨e, h⟩
    constructor
    · intro a a' b' h1 h2; exact S.allocUniq a a' b' ((hn _ _).1 h1).2 ((hn _ _).1 h2).2
    · intro a b' h; exact S.allocLt a b' ((hn _ _).1 h).2
    · intro a b' h hz
      obtain ⟨h1, h2⟩ := (hn _ _).1 h
      show upd k.mem b false b' = true
      rw [upd_ne]; exact S.allocMem a b' h2 hz
      rintro rfl; exact h1 (S.allocUniq _ _ _ h2 hx)
    · intro b' h
      obtain ⟨h1, h2⟩ := hm b' h
      obtain ⟨a, h3⟩ := S.memAlloc b' h2
      refine ⟨a, (hn _ _).2 ⟨?_, h3⟩⟩
      rintro rfl; rw [hx] at h3; cases h3; exact h1 rfl
    · intro b' h; exact S.memLt b' (hm b' h).2
    · intro hz b'
      show upd k.mem b false b' = false
      simp only [upd]; split; rfl; exact S.memZst hz b'

end Verif.Rc
