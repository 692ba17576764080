import Verif.Rc.Proofs.Bounds
import Verif.Props.RcUnwind
/-!
# C71, C72: memory and stack of `RcSlice`s

However subslices are cloned, dropped and cloned again, a slice of `n` items needs memory for at most `3 * n - 1` subslices, and for their guards; and recursion in
the code is never deeper than the tree of its subslices, which has logarithmic depth.
-/

namespace Verif
open Verif.Rc
open Verif.Spec (Side Slot Family Rng Hand World Op Obs End)
open Verif.Arc (most)
variable {α : Type} {umax : Nat} {zst : Bool} {c : Config α}

/-- C71: At most so many blocks of memory are ever allocated for the subslices of a slice, from when it is made to when all that was made of it has been dropped.
(`(c.st.h.sk.fams f).rng.len` is the number of its items.) -/
theorem C71_blocks (h : Config.PReach umax zst c) (f : Nat) : (c.blocks f).length ≤ most (c.st.h.sk.fams f).rng.len := by
  have key : ∀ x ∈ c.blocks f, x < c.st.h.sk.next ∧ c.st.h.sk.kind x = .data ∧ (c.st.h.sk.lab x).fam = f := fun x hx => by
    have := List.mem_filter.1 hx
    simp only [Bool.and_eq_true, decide_eq_true_eq, List.mem_range] at this
    exact ⟨this.1, this.2.1, this.2.2⟩
  refine h.count (List.nodup_range.sublist List.filter_sublist) (fun x hx => ?_) fun x hx y hy hl => ?_
  · obtain ⟨h1, h2, h3⟩ := key x hx
    exact ⟨h1, by rw [h2]; simp, h3⟩
  · obtain ⟨h1, h2, _⟩ := key x hx
    obtain ⟨h4, h5, _⟩ := key y hy
    exact h.hist.2.uniq x y h1 h4 h2 h5 hl

/-- C71: There are never two of them for what is got by the same halvings (those that leave a slice as it is not counted), even if the first is long dropped. -/
theorem C71_once (h : Config.PReach umax zst c) (f : Nat) : ((c.blocks f).map fun x => (c.st.h.sk.lab x).path).Nodup := by
  have key : ∀ x ∈ c.blocks f, x < c.st.h.sk.next ∧ c.st.h.sk.kind x = .data ∧ (c.st.h.sk.lab x).fam = f := fun x hx => by
    have := List.mem_filter.1 hx
    simp only [Bool.and_eq_true, decide_eq_true_eq, List.mem_range] at this
    exact ⟨this.1, this.2.1, this.2.2⟩
  have nd : (c.blocks f).Nodup := List.nodup_range.sublist List.filter_sublist
  refine List.pairwise_map.2 (nd.imp_of_mem fun {x y} hx hy hne he => hne ?_)
  obtain ⟨h1, h2, h3⟩ := key x hx
  obtain ⟨h4, h5, h6⟩ := key y hy
  refine h.hist.2.uniq x y h1 h4 h2 h5 ?_
  have : ∀ {l m : Lab}, l.fam = m.fam → l.path = m.path → l = m := fun {l m} a b => by cases l; cases m; simp_all
  exact this (h3.trans h6.symm) he

/-- C71: At any time there is memory for at most so many `GetMutGuard`s. -/
theorem C71_getMutGuards (h : Config.PReach umax zst c) (f : Nat) : (c.guards .gmg f).length ≤ most (c.st.h.sk.fams f).rng.len := by
  refine h.count Config.guards_nodup (fun x hx => ?_) fun x hx y hy hl => ?_
  · obtain ⟨h1, _, h3, h4⟩ := Config.mem_guards hx
    exact ⟨h1, by rw [h3]; simp, h4⟩
  · obtain ⟨_, h2, h3, _⟩ := Config.mem_guards hx
    obtain ⟨_, h5, h6, _⟩ := Config.mem_guards hy
    exact h.gmgUniq h3 h6 h2 h5 hl

/-- C71: At any time there is memory for at most twice as many `IntoMutGuard`s; at most so many of them have not been dropped. -/
theorem C71_intoMutGuards (h : Config.PReach umax zst c) (f : Nat) :
    (c.guards .img f).length ≤ 2 * most (c.st.h.sk.fams f).rng.len ∧
    ((c.guards .img f).filter fun x => (c.st.h.sk.node x).isSome).length ≤ most (c.st.h.sk.fams f).rng.len := by
  have S := h.shape
  have nd : ∀ (p : Nat → Bool), ((c.guards .img f).filter p).Nodup := fun p => Config.guards_nodup.sublist List.filter_sublist
  have ok : ∀ (p : Nat → Bool), ∀ x ∈ (c.guards .img f).filter p, x < c.st.h.sk.next ∧ c.st.h.sk.kind x ≠ .alloc ∧ (c.st.h.sk.lab x).fam = f := fun p x hx => by
    obtain ⟨h1, _, h3, h4⟩ := Config.mem_guards (List.mem_filter.1 hx).1
    exact ⟨h1, by rw [h3]; simp, h4⟩
  have live : ∀ {x}, x ∈ c.guards .img f → c.st.h.sk.node x ≠ none → ∃ v, c.st.h.sk.node x = some (.img v) := fun {x} hx hn => by
    obtain ⟨n, hn⟩ := Option.ne_none_iff_exists'.1 hn
    have hk := S.kinds x n hn
    rw [(Config.mem_guards hx).2.2.1] at hk
    cases n <;> try cases hk
    exact ⟨_, hn⟩
  refine ⟨?_, h.count (nd _) (ok _) fun x hx y hy hl => ?_⟩
  · -- those that their `GetMutGuard` refers to; the others have been dropped, and their parents refer to them
    classical
    let p : Nat → Bool := fun x => decide (∃ g v, c.st.h.sk.node g = some (.gmg v) ∧ v.img = some x)
    have h1 : ((c.guards .img f).filter p).length ≤ most (c.st.h.sk.fams f).rng.len := h.count (nd _) (ok _) fun x hx y hy hl => by
      obtain ⟨g, v, h1, h2⟩ := of_decide_eq_true (List.mem_filter.1 hx).2
      obtain ⟨g', v', h3, h4⟩ := of_decide_eq_true (List.mem_filter.1 hy).2
      have := S.gmgUniq g v g' v' h1 h3 ((S.gmgImg g v x h1 h2).1.symm.trans (hl.trans (S.gmgImg g' v' y h3 h4).1))
      subst this
      rw [h1] at h3
      cases h3
      rw [h2] at h4
      exact Option.some.inj h4
    have par : ∀ {x}, x ∈ (c.guards .img f).filter (fun x => !p x) →
        ∃ y v s, c.st.h.sk.node y = some (.img v) ∧ v.kids s = some x ∧ c.st.h.sk.lab x = (c.st.h.sk.lab y).child s := fun {x} hx => by
      obtain ⟨h2, h3⟩ := List.mem_filter.1 hx
      have np : ¬ ∃ g v, c.st.h.sk.node g = some (.gmg v) ∧ v.img = some x := by simpa [p] using h3
      obtain ⟨_, h4, h5, _⟩ := Config.mem_guards h2
      rcases h.imgHeld h5 h4 with ⟨v, hv⟩ | h6 | ⟨g, v, h6, h7, _⟩
      · obtain ⟨hl, vg, hg⟩ := S.imgGmg x v hv
        exact absurd ⟨_, vg, hg, S.gmgBack _ vg x v hg hv hl.symm⟩ np
      · exact h6
      · exact absurd ⟨g, v, h6, h7⟩ np
    have h2 : ((c.guards .img f).filter fun x => !p x).length ≤ most (c.st.h.sk.fams f).rng.len := h.count (nd _) (ok _) fun x hx y hy hl => by
      obtain ⟨q, v, s, h1, h2, h3⟩ := par hx
      obtain ⟨q', v', s', h4, h5, h6⟩ := par hy
      rw [h3, h6] at hl
      obtain ⟨hl', rfl⟩ := child_inj hl
      have := S.imgUniq q v q' v' h1 h4 hl'
      subst this
      rw [h1] at h4
      cases h4
      rw [h2] at h5
      exact Option.some.inj h5
    have h3 := List.length_eq_countP_add_countP (l := c.guards .img f) p
    rw [List.countP_eq_length_filter, List.countP_eq_length_filter] at h3
    simp only [Bool.not_eq_true, Bool.decide_eq_false] at h3
    omega
  · obtain ⟨h1, h2⟩ := List.mem_filter.1 hx
    obtain ⟨h3, h4⟩ := List.mem_filter.1 hy
    obtain ⟨v, hv⟩ := live h1 (Option.isSome_iff_ne_none.1 h2)
    obtain ⟨w, hw⟩ := live h3 (Option.isSome_iff_ne_none.1 h4)
    exact S.imgUniq x v y w hv hw hl

/-- C72: If a slice was made of at most `2 ^ m` items, then

* drops of the guards of its subslices are nested at most `m + 3` deep, the first one counted (`m + 2` of them inside of the first one), and calls of
  `ensure_into_mut_guard` too,
* drops of the slice data of its subslices are nested at most `m + 2` deep, and calls of `forget_items` too.

(`x` is what the first one is called for.) -/
theorem C72_stack (h : Config.PReach umax zst c) {m x n y : Nat} (hx : c.st.h.sk.node x ≠ none) (hi : Config.Inside c x n y)
    (hm : (c.st.h.sk.fams (c.st.h.sk.lab x).fam).rng.len ≤ 2 ^ m) : n ≤ m + 2 ∧ (c.st.h.sk.kind x = .data → n ≤ m + 1) := by
  obtain ⟨k, hk⟩ := Option.ne_none_iff_exists'.1 hx
  have S := h.shape
  obtain ⟨h1, h2, h3⟩ := hi.cases_on S
  rw [S.kinds x k hk]
  cases k with
  | data v =>
    obtain ⟨w, hw, hf, hl⟩ := h1 v hk
    have := (h.proper hw (by simp [Node.kind])).length_le (m := m) (by rw [hf]; exact hm)
    exact ⟨by omega, fun _ => by omega⟩
  | gmg v =>
    have := (h.proper hk (by simp [Node.kind])).length_le hm
    have := h2 v hk
    exact ⟨by omega, nofun⟩
  | img v =>
    have := (h.proper hk (by simp [Node.kind])).length_le hm
    have := h3 v hk
    exact ⟨by omega, nofun⟩
  | alloc b =>
    have : n = 0 := by
      cases hi with
      | self => rfl
      | img h => rw [hk] at h; cases h
      | own h => rw [hk] at h; cases h
      | gmg h => rw [hk] at h; cases h
      | data h => rw [hk] at h; cases h
    subst this
    exact ⟨by omega, nofun⟩

/-! ## Programs that meet the hypotheses -/

namespace Rc

def fully (l : List (PAct Nat)) : Config Nat := (followP 100 (Config.init false) l).getD (Config.init false)

theorem fully_reach {l : List (PAct Nat)} (h : (followP 100 (Config.init false) l).isSome = true) : Config.PReach 100 false (fully l) := by
  obtain ⟨c, hc⟩ := Option.isSome_iff_exists.1 h
  have := followP_reach l .init hc
  simpa [fully, hc] using this

/-- `let a = RcSlice::new(vec![1, 2]);` `l` and `r` are its halves, and then all halves of these are cloned. One is dropped, and cloned again. -/
def allHalves : List (PAct Nat) :=
  [.op (.rcNew [1, 2]), .op (.cloneSide .L 0), .op (.cloneSide .R 0), .op (.cloneSide .L 1), .op (.drop 3), .drop, .drop, .drop, .drop, .drop,
    .op (.cloneSide .L 1), .op (.cloneSide .L 2), .op (.cloneSide .R 1)]

theorem allHalves_reach : Config.PReach 100 false (fully allHalves) := fully_reach rfl

/-- The bounds are attained. -/
example : ((fully allHalves).blocks 0).length = 5 ∧ ((fully allHalves).guards .gmg 0).length = 5 ∧ ((fully allHalves).guards .img 0).length = 5 ∧
    most ((fully allHalves).st.h.sk.fams 0).rng.len = 5 := by
  decide +kernel

/-- The drop of the `IntoMutGuard` of the left half of the left half: inside of it that of its parent, inside of that one the one of the parent of the parent, and
inside of that one that of a `GetMutGuard`. This is as deep as it may be. -/
example : Config.Inside (fully allHalves) 14 3 2 ∧ (fully allHalves).st.h.sk.node 14 ≠ none ∧ ((fully allHalves).st.h.sk.fams 0).rng.len = 2 ^ 1 :=
  ⟨.img (p := 6) rfl rfl (.img (p := 3) rfl rfl (.own rfl (.self 2))), by decide +kernel, by decide +kernel⟩

/-- The drop of the slice data: inside of it that of its left half, and inside of that one that of the left half of the left half. -/
example : Config.Inside (fully allHalves) 1 2 10 ∧ (fully allHalves).st.h.sk.node 1 ≠ none :=
  ⟨.data (s := .L) (k := 4) rfl rfl (.data (s := .L) (k := 10) rfl rfl (.self 10)), by decide +kernel⟩

end Rc
end Verif
