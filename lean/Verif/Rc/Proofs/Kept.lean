import Verif.Rc.Kept
import Verif.Rc.Proofs.Bounds
import Verif.Rc.Proofs.Disjoint
/-!
# What handles keep in memory: proofs
-/

namespace Verif.Rc
open Verif.Spec (Side Slot Family Rng World Op Obs End)
open Verif.Arc (Proper most)
variable {α : Type}

theorem subset_len {β : Type} [DecidableEq β] : ∀ {l m : List β}, l.Nodup → (∀ x ∈ l, x ∈ m) → l.length ≤ m.length
  | [], _, _, _ => Nat.zero_le _
  | a :: l, m, hn, hs => by
    have ha := hs a (List.mem_cons_self ..)
    have h1 : l.length ≤ (m.erase a).length := subset_len (List.nodup_cons.1 hn).2 fun x hx =>
      (List.mem_erase_of_ne fun (e : x = a) => (List.nodup_cons.1 hn).1 (e ▸ hx)).2 (hs x (List.mem_cons_of_mem _ hx))
    rw [List.length_erase_of_mem ha] at h1
    have := List.length_pos_of_mem ha
    simp only [List.length_cons]; omega

theorem flat_len {β γ : Type} {F : β → List γ} {b : Nat} : ∀ {l : List β}, (∀ x ∈ l, (F x).length ≤ b) → (l.flatMap F).length ≤ l.length * b
  | [], _ => by simp
  | a :: l, h => by
    have h1 := flat_len (F := F) (l := l) (b := b) fun x hx => h x (List.mem_cons_of_mem _ hx)
    have h2 := h a (List.mem_cons_self ..)
    rw [List.flatMap_cons, List.length_append, List.length_cons, Nat.succ_mul]; omega

/-- A set of natural numbers below `n`. -/
theorem nodup_lt {l : List Nat} {n : Nat} (hn : l.Nodup) (h : ∀ x ∈ l, x < n) : l.length ≤ n := by
  have := subset_len hn (m := List.range n) fun x hx => List.mem_range.2 (h x hx)
  simpa using this

section
variable {umax : Nat} {zst : Bool} {s : State α}

theorem State.mem_alive {kd : Kind} {x : Nat} : x ∈ s.alive kd ↔ x < s.h.sk.next ∧ 0 < s.h.strong x ∧ s.h.sk.kind x = kd := by
  simp only [State.alive, List.mem_filter, List.mem_range, Bool.and_eq_true, decide_eq_true_eq]

theorem State.mem_kept {kd : Kind} {x : Nat} : x ∈ s.kept kd ↔ x < s.h.sk.next ∧ (0 < s.h.strong x ∨ 0 < s.h.weak x) ∧ s.h.sk.kind x = kd := by
  simp only [State.kept, List.mem_filter, List.mem_range, Bool.and_eq_true, decide_eq_true_eq]

theorem State.alive_nodup {kd : Kind} : (s.alive kd).Nodup := List.nodup_range.sublist List.filter_sublist
theorem State.kept_nodup {kd : Kind} : (s.kept kd).Nodup := List.nodup_range.sublist List.filter_sublist

/-- Between calls. -/
theorem Config.PReach.inv0 (h : Config.PReach umax zst ⟨s, []⟩) : Inv s.h (tabToks umax s.hs) := by
  obtain ⟨w, _, R⟩ := preach_sim h
  have R : Rel umax s w [] := R
  simpa using R.inv

/-- The labels of the `RcSlice`s. -/
def State.sLabs (s : State α) : List Lab := s.hs.filterMap fun o => match o with | some (.strong d _) => some (s.h.sk.lab d) | _ => none
/-- The labels of the `WeakSlice`s. -/
def State.wLabs (s : State α) : List Lab := s.hs.filterMap fun o => match o with | some (.weak _ g) => some (s.h.sk.lab g) | _ => none

theorem State.sLabs_len : s.sLabs.length = s.strongs := by
  rw [State.sLabs, List.length_filterMap_eq_countP, State.strongs]
  congr 1; funext o
  split <;> simp_all

theorem State.wLabs_len : s.wLabs.length = s.weaks := by
  rw [State.wLabs, List.length_filterMap_eq_countP, State.weaks]
  congr 1; funext o
  split <;> simp_all

theorem mem_of_join {hs : List (Option Handle)} {k : Nat} {x : Handle} (h : hs[k]?.join = some x) : some x ∈ hs := by
  cases e : hs[k]? with
  | none => rw [e] at h; cases h
  | some o => rw [e] at h; have h : o = some x := h; subst h; exact List.mem_of_getElem? e

theorem State.mem_sLabs {d i : Nat} (h : .strong d i ∈ tabToks umax s.hs) : s.h.sk.lab d ∈ s.sLabs := by
  obtain ⟨j, hj⟩ := mem_tabToks_strong.1 h
  exact List.mem_filterMap.2 ⟨_, mem_of_join hj, rfl⟩

theorem State.mem_wLabs {d : Option Nat} {g : Nat} (h : .weak d g ∈ tabToks umax s.hs) : s.h.sk.lab g ∈ s.wLabs := by
  obtain ⟨j, hj⟩ := mem_tabToks_weak.1 h
  exact List.mem_filterMap.2 ⟨_, mem_of_join hj, rfl⟩

theorem up_inj {a b l : Lab} (ha : a.up l) (hb : b.up l) (he : a.path.length = b.path.length) : a = b := by
  obtain ⟨h1, p, hp⟩ := ha
  obtain ⟨h2, q, hq⟩ := hb
  have : p.length = q.length := by
    have := congrArg List.length (hp.trans hq.symm)
    simp only [List.length_append] at this; omega
  have := (List.append_inj (hp.trans hq.symm) this).2
  cases a; cases b; simp_all

open Classical in
/-- Live guards of which each is that of one of the given slices, or of one that this was cut from. -/
theorem Config.PReach.above_len (h : Config.PReach umax zst ⟨s, []⟩) {m : Nat} (hm : ∀ f, f < s.h.sk.nfam → (s.h.sk.fams f).rng.len ≤ 2 ^ m) {kd : Kind} (hk : kd ≠ .alloc)
    (hu : ∀ x ∈ s.alive kd, ∀ y ∈ s.alive kd, s.h.sk.lab x = s.h.sk.lab y → x = y) {K : List Lab} (hK : ∀ x ∈ s.alive kd, ∃ l ∈ K, (s.h.sk.lab x).up l) :
    (s.alive kd).length ≤ K.length * (m + 2) := by
  let F : Lab → List Nat := fun l => (s.alive kd).filter fun x => decide ((s.h.sk.lab x).up l)
  have memF : ∀ {l x}, x ∈ F l ↔ x ∈ s.alive kd ∧ (s.h.sk.lab x).up l := fun {l x} => by
    simp only [F, List.mem_filter, decide_eq_true_eq]
  refine Nat.le_trans (subset_len State.alive_nodup (m := K.flatMap F) fun x hx => ?_) (flat_len fun l _ => ?_)
  · obtain ⟨l, hl, hx2⟩ := hK x hx
    exact List.mem_flatMap.2 ⟨l, hl, memF.2 ⟨hx, hx2⟩⟩
  · rw [← List.length_map (f := fun x => (s.h.sk.lab x).path.length)]
    have nd : (F l).Nodup := State.alive_nodup.sublist List.filter_sublist
    have h0 : ((F l).map fun x => (s.h.sk.lab x).path.length).Nodup := by
      refine List.pairwise_map.2 (nd.imp_of_mem fun {x y} hx hy hne he => hne ?_)
      obtain ⟨h1, h2⟩ := memF.1 hx
      obtain ⟨h3, h4⟩ := memF.1 hy
      exact hu x h1 y h3 (up_inj h2 h4 he)
    refine nodup_lt h0 fun y hy => ?_
    · obtain ⟨x, hx, rfl⟩ := List.mem_map.1 hy
      obtain ⟨h1, h2, h3⟩ := State.mem_alive.1 (memF.1 hx).1
      have hka : s.h.sk.kind x ≠ .alloc := by rw [h3]; exact hk
      have : (s.h.sk.lab x).path.length ≤ m + 1 := (h.hist.1 x h1 hka).2.length_le (hm _ (h.shape.famLt x h1 hka))
      show (s.h.sk.lab x).path.length < m + 2
      omega

theorem Config.PReach.alive_node (h : Config.PReach umax zst ⟨s, []⟩) {kd : Kind} {x : Nat} (hx : x ∈ s.alive kd) : ∃ n, s.h.sk.node x = some n ∧ n.kind = kd := by
  obtain ⟨_, h2, h3⟩ := State.mem_alive.1 hx
  obtain ⟨n, hn⟩ := h.inv0.good.ledger.node_of_pos h2
  exact ⟨n, hn, (h.shape.kinds _ _ hn).symm.trans h3⟩

theorem Config.PReach.alive_img (h : Config.PReach umax zst ⟨s, []⟩) {x : Nat} (hx : x ∈ s.alive .img) : ∃ v, s.h.sk.node x = some (.img v) := by
  obtain ⟨n, hn, hk⟩ := h.alive_node hx
  cases n <;> simp [Node.kind] at hk
  exact ⟨_, hn⟩

theorem Config.PReach.alive_gmg (h : Config.PReach umax zst ⟨s, []⟩) {x : Nat} (hx : x ∈ s.alive .gmg) : ∃ v, s.h.sk.node x = some (.gmg v) := by
  obtain ⟨n, hn, hk⟩ := h.alive_node hx
  cases n <;> simp [Node.kind] at hk
  exact ⟨_, hn⟩

/-- `Weak`s inside of guards refer to guards. -/
theorem Shape.wref_kind {k : Skel} (S : Shape k) {x y : Nat} {n : Node} (hn : k.node y = some n) (hm : x ∈ n.wrefs) : k.kind x = .img ∨ k.kind x = .gmg := by
  have side : ∀ {ks : Side → Option Nat}, x ∈ (ks .L).toList ++ (ks .R).toList → ∃ s, ks s = some x := fun hm => by
    rcases List.mem_append.1 hm with h1 | h1
    · exact ⟨.L, Option.mem_toList.1 h1⟩
    · exact ⟨.R, Option.mem_toList.1 h1⟩
  cases n with
  | data v => cases hm
  | alloc b => cases hm
  | img v =>
    obtain ⟨t, ht⟩ := side hm
    exact .inl (S.imgKid y v t x hn ht).2.1
  | gmg v =>
    rcases List.mem_append.1 hm with h1 | h1
    · obtain ⟨t, ht⟩ := side h1
      exact .inr (S.gmgKid y v t x hn ht).2.1
    · exact .inl (S.gmgImg y v x hn (Option.mem_toList.1 h1)).2.1

/-- The memory of slice data that has been dropped is there because of `WeakSlice`s. -/
theorem Config.PReach.dataHeld (h : Config.PReach umax zst ⟨s, []⟩) {x : Nat} (hk : s.h.sk.kind x = .data) (hw : 0 < s.h.weak x) :
    ∃ g, .weak (some x) g ∈ tabToks umax s.hs := by
  have I := h.inv0
  have L := I.good.ledger.w x
  have S := I.good.shape
  have h0 : nsum s.h.sk (fun n => n.wrefs.count x) = 0 := by
    refine Nat.eq_zero_of_not_pos fun hp => ?_
    obtain ⟨y, n, _, hn, hc⟩ := nsum_pos hp
    have hm := List.count_pos_iff.1 hc
    rcases S.wref_kind hn hm with h1 | h1 <;> rw [hk] at h1 <;> cases h1
  have : 0 < (Ws (tabToks umax s.hs)).count x := by omega
  obtain ⟨t, ht, hx⟩ := List.mem_flatMap.1 (List.count_pos_iff.1 this)
  cases t with
  | weak d g =>
    simp only [Tok.W, Option.mem_toList] at hx
    exact ⟨g, hx ▸ ht⟩
  | _ => cases hx

end

end Verif.Rc
