import Verif.Arc.Proofs.Conf
/-!
# The tree of slices and the chain of guards above a slice
-/

namespace Verif.Arc
open Verif.Spec (Side Slot Family Rng End)
open Verif.Rc
variable {α : Type}

section
variable {c : Conf α}

/-! ## Writes, and the beginning -/

theorem Conf.write_cases {c' : Conf α} {e : Ent} {j : Nat} {x : α} (h : c.write e j x = .ok c') :
    c' = c ∨ ∃ b i, c' = { c with a := c.a.withB (c.a.b.setSlot b i (.live x)) } := by
  rcases Conf.write_eq h with rfl | ⟨b, off, len, h', _, _, e2, rfl⟩
  · exact .inl rfl
  · simp only [writeItem] at e2
    split at e2
    · cases e2
    · split at e2 <;> cases e2
      exact .inr ⟨_, _, rfl⟩

theorem Conf.GFI.write {c' : Conf α} {e : Ent} {j : Nat} {x : α} (F : c.GFI) (h : c.write e j x = .ok c') : c'.GFI := by
  rcases Conf.write_cases h with rfl | ⟨b, i, rfl⟩
  · exact F
  · refine ⟨⟨F.gf.box, F.gf.lt, F.gf.gof, F.gf.uniq, F.gf.link1, F.gf.link2⟩, fun k e hk => ?_, fun i cl hi => ?_⟩
    · have := F.ents k e hk
      cases hh : e.h <;> rw [hh] at this <;> exact this
    · obtain ⟨h1, h2⟩ := F.calls i cl hi
      refine ⟨?_, fun t ht => ?_⟩
      · revert h1
        generalize cl.pc = pc
        intro h1
        cases pc <;> exact h1
      · have := h2 t ht
        cases t <;> exact this

theorem Conf.BI.init (zst : Bool) : (Conf.init (α := α) zst).BI where
  heap := by
    have := Inv.init (α := α) zst
    refine ⟨this.good, by simp [Conf.T, Conf.init], ?_, ?_⟩
    · intro b i _; rfl
    · intro x n hx; simp [Conf.init, Heap.empty] at hx
  gi := Conf.init_GI zst
  par := by constructor <;> (intros; simp_all [Conf.init, Heap.empty])
  ents := by intro k e hk; simp [Conf.get, Conf.init] at hk
  calls := by intro i cl hi; simp [Conf.init] at hi

theorem Conf.GFI.init (zst : Bool) : (Conf.init (α := α) zst).GFI where
  gf := by constructor <;> (intros; simp_all [Conf.init, Heap.empty])
  ents := by intro k e hk; simp [Conf.get, Conf.init] at hk
  calls := by intro i cl hi; simp [Conf.init] at hi

/-! ## Between two slices -/

/-- A slice strictly below a live one hangs below it: its parent is alive. -/
theorem parent_live {k : Skel} (S : DShape k) {d x : Nat} {v w : DataV} (hd : k.node d = some (.data v)) (hx : k.node x = some (.data w))
    (hu : (k.lab d).up (k.lab x)) (hne : k.lab d ≠ k.lab x) :
    ∃ q u s, k.node q = some (.data u) ∧ u.kids s = some x ∧ (k.lab d).up (k.lab q) := by
  generalize hn : (k.lab x).path.length - (k.lab d).path.length = n
  induction n using Nat.strongRecOn generalizing d v with
  | ind n ih =>
    rcases Lab.up_cases hu with h | ⟨s, h⟩
    · exact absurd h hne
    · have h1 := S.dataDown d v x w s hd hx h
      cases hc : v.kids s with
      | none => rw [hc] at h1; cases h1
      | some c =>
        obtain ⟨_, hl, vc, hvc⟩ := S.dataKid d v s c hd hc
        by_cases hcx : k.lab c = k.lab x
        · have := S.dataUniq c vc x w hvc hx hcx
          subst this
          exact ⟨d, v, s, hd, hc, Lab.up_refl _⟩
        · have hlen := Lab.up_len h
          obtain ⟨q, u, t, h2, h3, h4⟩ := ih ((k.lab x).path.length - (k.lab c).path.length) (by
            rw [hl]; simp only [Lab.child, List.length_cons] at hlen ⊢; omega) hvc (by rw [hl]; exact h) hcx rfl
          exact ⟨q, u, t, h2, h3, Lab.up_of_child (by rw [← hl]; exact h4)⟩

/-- A live guard of a slice below `d` keeps a guard of `d` alive. -/
theorem guard_chain {a : Arena α} {D W C E : List Nat} (S : DShape a.b.sk) (G : GF a) (P : ParOK a) (I : GI a D W C E) {g' : Nat} {vg : GuardV} :
    a.guard g' = some vg → ∀ {d x : Nat} {v w : DataV}, x = a.gOf g' → a.b.sk.node d = some (.data v) → a.b.sk.node x = some (.data w) →
    (a.b.sk.lab d).up (a.b.sk.lab x) → a.b.sk.lab d ≠ a.b.sk.lab x →
    ∃ g1 v1 g2, a.guard g1 = some v1 ∧ v1.parent = some g2 ∧ a.gOf g2 = d ∧ g1 ≤ g' := by
  induction g' using Nat.strongRecOn generalizing vg with
  | ind g' ih =>
    intro hg d x v w hx hd hw hu hne
    subst hx
    obtain ⟨q, u, s, hq, hk, hdq⟩ := parent_live S hd hw hu hne
    have hpar := P.kid q u s _ hq hk
    cases hp : vg.parent with
    | none =>
      have := G.link2 g' vg q _ hg hp hw hpar
      rw [hq] at this; cases this
    | some p =>
      obtain ⟨h1, h2⟩ := G.link1 g' vg p hg hp
      rw [hpar] at h2
      have h2 : q = a.gOf p := Option.some.inj h2
      by_cases hqd : q = d
      · exact ⟨g', vg, p, hg, hp, by rw [← h2]; exact hqd, Nat.le_refl _⟩
      · have hpl : ∃ vp, a.guard p = some vp := by
          refine (I.live p).1 ?_
          have h3 := I.strong p
          have := prefs_pos (n := a.ng) (G.lt g' vg hg) hg hp
          omega
        obtain ⟨vp, hvp⟩ := hpl
        obtain ⟨g1, v1, g2, e1, e2, e3, e4⟩ := ih p h1 hvp h2 hd hq hdq (fun e => hqd (S.dataUniq q u d v hq hd e.symm))
        exact ⟨g1, v1, g2, e1, e2, e3, by omega⟩

theorem GF.unique {a : Arena α} (G : GF a) {g g' : Nat} {v v' : GuardV} {n : Node} (h : a.guard g = some v) (h' : a.guard g' = some v')
    (e : a.gOf g = a.gOf g') (hn : a.b.sk.node (a.gOf g) = some n) : g = g' := by
  have h1 := G.uniq g v n h hn
  have h2 := G.uniq g' v' n h' (by rw [← e]; exact hn)
  rw [e, h2] at h1
  exact (Option.some.inj h1).symm

/-- A guard counted once is held once, and no guard below it is there. -/
theorem GI.lonely {a : Arena α} {D W C E : List Nat} (I : GI a D W C E) (G : GF a) {g : Nat} (h1 : a.gS g = 1) (hD : g ∈ D) :
    D.count g = 1 ∧ ∀ g1 v1, a.guard g1 = some v1 → v1.parent ≠ some g := by
  have h2 := I.strong g
  have h3 := List.count_pos_iff.2 hD
  refine ⟨by omega, fun g1 v1 hg hp => ?_⟩
  have := prefs_pos (n := a.ng) (G.lt g1 v1 hg) hg hp
  omega

/-! ## Slices no longer connected to anything above them -/

/-- Nothing strictly above `y` is alive. -/
def Loose (a : Arena α) (y : Nat) : Prop := ∀ q v, a.b.sk.node q = some (.data v) → (a.b.sk.lab q).up (a.b.sk.lab y) → a.b.sk.lab q = a.b.sk.lab y

theorem Loose.mono {a a' : Arena α} {y : Nat} (e : AEvo a a') (B : Base a.b.sk) (B' : Base a'.b.sk) (hy : y < a.b.sk.next) (hk : a.b.sk.kind y = .data)
    (h : Loose a y) : Loose a' y := by
  intro q v hq hu
  rw [e.evo.lab y hy] at hu ⊢
  by_cases hlt : q < a.b.sk.next
  · rw [e.evo.lab q hlt] at hu ⊢
    cases hq0 : a.b.sk.node q with
    | none => rw [e.evo.dead q hlt hq0] at hq; cases hq
    | some n =>
      have : n.kind = .data := by
        rw [← B.kinds q n hq0, ← e.evo.kind q hlt]; exact B'.kinds q _ hq
      obtain ⟨w, rfl⟩ := data_of_kind this
      exact h q w hq0 hu
  · rcases e.evo.new q v (by omega) hq with ⟨q', w, h1, h2⟩ | h1
    · have h3 := h q' w h1 (Lab.up_trans h2 hu)
      rw [h3] at h2
      exact Lab.up_antisymm hu h2
    · have := B.famLt y hy (by rw [hk]; simp)
      rw [hu.1] at h1; omega

end
end Verif.Arc
