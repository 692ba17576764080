import Verif.Rc.Counts
import Verif.Rc.Proofs.Kept
/-!
# How large reference counts get: proofs
-/

namespace Verif.Rc
open Verif.Spec (Side Slot Family Rng World Op Obs End)
variable {α : Type}

/-- What adds up is at most one everywhere, and told apart by its keys. -/
theorem nsum_key {β : Type} [DecidableEq β] {k : Skel} {f : Node → Nat} (key : Nat → β) (L : List β) (h1 : ∀ y n, k.node y = some n → f n ≤ 1)
    (h2 : ∀ y n, k.node y = some n → 0 < f n → key y ∈ L)
    (h3 : ∀ y n z m, k.node y = some n → 0 < f n → k.node z = some m → 0 < f m → key y = key z → y = z) : nsum k f ≤ L.length := by
  let g : Nat → Nat := fun x => ((k.node x).map f).getD 0
  have pos : ∀ {y}, 0 < g y → ∃ n, k.node y = some n ∧ 0 < f n := fun {y} h => by
    simp only [g] at h
    cases hn : k.node y with
    | none => rw [hn] at h; simp at h
    | some n => rw [hn] at h; exact ⟨n, rfl, by simpa using h⟩
  have le1 : ∀ y, g y ≤ 1 := fun y => by
    simp only [g]
    cases hn : k.node y with
    | none => simp
    | some n => simpa using h1 y n hn
  have len : ∀ n, sumTo n g = ((List.range n).filter fun y => decide (0 < g y)).length := fun n => by
    induction n with
    | zero => rfl
    | succ n ih =>
      have := le1 n
      rw [List.range_succ, List.filter_append, List.length_append, ← ih, sumTo]
      by_cases h : 0 < g n
      · simp [h]; omega
      · simp [h]; omega
  have : nsum k f = _ := len k.next
  rw [this, ← List.length_map (f := key)]
  have mem : ∀ {y}, y ∈ (List.range k.next).filter (fun y => decide (0 < g y)) → 0 < g y := fun {y} hy => by simpa using (List.mem_filter.1 hy).2
  have nd : (((List.range k.next).filter fun y => decide (0 < g y)).map key).Nodup := by
    refine List.pairwise_map.2 ((List.nodup_range.sublist List.filter_sublist).imp_of_mem fun {y z} hy hz hne he => hne ?_)
    obtain ⟨n, hn, hp⟩ := pos (mem hy)
    obtain ⟨m, hm, hq⟩ := pos (mem hz)
    exact h3 y n z m hn hp hm hq he
  refine subset_len nd fun b hb => ?_
  obtain ⟨y, hy, rfl⟩ := List.mem_map.1 hb
  obtain ⟨n, hn, hp⟩ := pos (mem hy)
  exact h2 y n hn hp

theorem count_flat {β : Type} {F : β → List Nat} {p : β → Bool} {x : Nat} : ∀ {T : List β}, (∀ t ∈ T, (F t).count x ≤ if p t then 1 else 0) → (T.flatMap F).count x ≤ T.countP p
  | [], _ => by simp
  | t :: T, h => by
    have h1 := count_flat (F := F) (p := p) (x := x) (T := T) fun u hu => h u (List.mem_cons_of_mem _ hu)
    have h2 := h t (List.mem_cons_self ..)
    rw [List.flatMap_cons, List.count_append, List.countP_cons]; omega

theorem toksOf_len : ∀ (ts : List Task), (toksOf ts).length ≤ ts.length
  | [] => Nat.le_refl _
  | t :: ts => by
    have := toksOf_len ts
    rw [toksOf_cons, List.length_append, List.length_cons]
    cases t <;> simp [Task.toks] <;> omega

section
variable {k : Skel} {x : Nat}

theorem count_opt (o : Option Nat) : o.toList.count x = if o = some x then 1 else 0 := by
  cases o with
  | none => simp
  | some y =>
    by_cases e : y = x
    · subst e; simp
    · simp [e]

/-- References to slice data: one from the slice it is a half of. -/
theorem Shape.data_refs (S : Shape k) (hk : k.kind x = .data) : nsum k (fun n => n.srefs.count x) ≤ 1 := by
  have al : ∀ {y v}, k.node y = some (.data v) → v.alloc ≠ some x := fun {y v} hy e => by
    have := S.kinds _ _ (S.dataAlloc y v x hy e)
    rw [hk] at this; cases this
  have form : ∀ {y n}, k.node y = some n → 0 < n.srefs.count x → ∃ v s, n = .data v ∧ v.kids s = some x := fun {y n} hy hc => by
    have hm := List.count_pos_iff.1 hc
    have h1 := S.ref_kind hy hm
    cases n with
    | data v =>
      rcases h1 with ⟨s, h1, _⟩ | h1
      · exact ⟨v, s, rfl, h1⟩
      · rw [hk] at h1; cases h1.2
    | img v => rw [hk] at h1; simp at h1
    | gmg v => rw [hk] at h1; simp at h1
    | alloc b => cases hm
  refine nsum_key (fun _ => ()) [()] (fun y n hy => ?_) (fun _ _ _ _ => by simp) fun y n z m hy hp hz hq _ => ?_
  · by_cases hc : 0 < n.srefs.count x
    · obtain ⟨v, s, rfl, hs⟩ := form hy hc
      have h3 := al hy
      have h4 : ¬ (v.kids .L = some x ∧ v.kids .R = some x) := fun ⟨e1, e2⟩ => by
        have l1 := (S.dataKid y v .L x hy e1).2.1
        have l2 := (S.dataKid y v .R x hy e2).2.1
        exact absurd (child_inj (l1.symm.trans l2)).2 (by simp)
      simp only [Node.srefs, List.count_append, count_opt]
      rw [if_neg h3]
      by_cases e1 : v.kids .L = some x <;> by_cases e2 : v.kids .R = some x <;> simp_all
    · omega
  · obtain ⟨v, s, rfl, hs⟩ := form hy hp
    obtain ⟨w, t, rfl, ht⟩ := form hz hq
    have l1 := (S.dataKid y v s x hy hs).2.1
    have l2 := (S.dataKid z w t x hz ht).2.1
    exact S.dataUniq y v z w hy hz (child_inj (l1.symm.trans l2)).1

/-- References to an `IntoMutGuard`: those from the guards of the halves. -/
theorem Shape.img_refs (S : Shape k) (hk : k.kind x = .img) : nsum k (fun n => n.srefs.count x) ≤ 2 := by
  have form : ∀ {y n}, k.node y = some n → 0 < n.srefs.count x → ∃ v, n = .img v ∧ v.parent = some x ∧ v.gmg ≠ x := fun {y n} hy hc => by
    have hm := List.count_pos_iff.1 hc
    have h1 := S.ref_kind hy hm
    cases n with
    | data v => rcases h1 with ⟨s, _, h1⟩ | h1 <;> simp [hk] at h1
    | img v =>
      have hg : v.gmg ≠ x := fun e => by
        obtain ⟨_, vg, h2⟩ := S.imgGmg y v hy
        have := S.kinds _ _ h2
        rw [e, hk] at this; cases this
      refine ⟨v, rfl, ?_, hg⟩
      rcases List.mem_append.1 hm with h2 | h2
      · exact Option.mem_toList.1 h2
      · exact absurd (List.mem_singleton.1 h2).symm hg
    | gmg v => rw [hk] at h1; simp at h1
    | alloc b => cases hm
  refine nsum_key k.lab [(k.lab x).child .L, (k.lab x).child .R] (fun y n hy => ?_) (fun y n hy hp => ?_) fun y n z m hy hp hz hq he => ?_
  · by_cases hc : 0 < n.srefs.count x
    · obtain ⟨v, rfl, h1, h2⟩ := form hy hc
      simp only [Node.srefs, List.count_append, count_opt, if_pos h1]
      rw [List.count_eq_zero.2 (by simpa using fun e => h2 e.symm)]
      omega
    · omega
  · obtain ⟨v, rfl, h1, _⟩ := form hy hp
    obtain ⟨_, ⟨s, h2⟩, _⟩ := S.imgPar y v x hy h1
    cases s <;> simp [h2]
  · obtain ⟨v, rfl, _, _⟩ := form hy hp
    obtain ⟨w, rfl, _, _⟩ := form hz hq
    exact S.imgUniq y v z w hy hz he

/-- References to a `GetMutGuard`: those from the guards of the halves, and from the `IntoMutGuard`. -/
theorem Shape.gmg_refs (S : Shape k) (hk : k.kind x = .gmg) : nsum k (fun n => n.srefs.count x) ≤ 3 := by
  have form : ∀ {y n}, k.node y = some n → 0 < n.srefs.count x →
      n.srefs.count x ≤ 1 ∧ ((∃ v, n = .img v ∧ k.lab y = k.lab x) ∨ ∃ v s, n = .gmg v ∧ k.lab y = (k.lab x).child s) := fun {y n} hy hc => by
    have hm := List.count_pos_iff.1 hc
    have h1 := S.ref_kind hy hm
    cases n with
    | data v => rcases h1 with ⟨s, _, h1⟩ | h1 <;> simp [hk] at h1
    | img v =>
      have hp : v.parent ≠ some x := fun e => by
        obtain ⟨_, _, vy, h2⟩ := S.imgPar y v x hy e
        have := S.kinds _ _ h2
        rw [hk] at this; cases this
      have hg : v.gmg = x := by
        rcases List.mem_append.1 hm with h2 | h2
        · exact absurd (Option.mem_toList.1 h2) hp
        · exact (List.mem_singleton.1 h2).symm
      refine ⟨?_, .inl ⟨v, rfl, ?_⟩⟩
      · simp only [Node.srefs, List.count_append, count_opt, if_neg hp, hg]; simp
      · rw [← (S.imgGmg y v hy).1, hg]
    | gmg v =>
      obtain ⟨p, h2, h3⟩ := List.mem_map.1 hm
      have h2 := Option.mem_toList.1 h2
      obtain ⟨p, s⟩ := p
      have h3 : p = x := h3
      subst h3
      refine ⟨?_, .inr ⟨v, s, rfl, (S.gmgPar y v p s hy h2).2.1⟩⟩
      simp [Node.srefs, h2]
    | alloc b => cases hm
  have ne : ∀ s, k.lab x ≠ (k.lab x).child s := fun s e => by
    have := congrArg (fun l => l.path.length) e
    simp [Lab.child] at this
  refine nsum_key k.lab [k.lab x, (k.lab x).child .L, (k.lab x).child .R] (fun y n hy => ?_) (fun y n hy hp => ?_) fun y n z m hy hp hz hq he => ?_
  · by_cases hc : 0 < n.srefs.count x
    · exact (form hy hc).1
    · omega
  · rcases (form hy hp).2 with ⟨v, rfl, h1⟩ | ⟨v, s, rfl, h1⟩
    · simp [h1]
    · cases s <;> simp [h1]
  · rcases (form hy hp).2 with ⟨v, rfl, h1⟩ | ⟨v, s, rfl, h1⟩ <;> rcases (form hz hq).2 with ⟨w, rfl, h2⟩ | ⟨w, t, rfl, h2⟩
    · exact S.imgUniq y v z w hy hz he
    · exact absurd (h1.symm.trans (he.trans h2)) (ne t)
    · exact absurd (h2.symm.trans (he.symm.trans h1)) (ne s)
    · exact S.gmgUniq y v z w hy hz he

/-- `Weak`s to an `IntoMutGuard`: from the guard of the whole, and from the `GetMutGuard`. -/
theorem Shape.img_weaks (S : Shape k) (hk : k.kind x = .img) : nsum k (fun n => n.wrefs.count x) ≤ 2 := by
  have form : ∀ {y n}, k.node y = some n → 0 < n.wrefs.count x →
      n.wrefs.count x ≤ 1 ∧ ((∃ v s, n = .img v ∧ k.lab x = (k.lab y).child s) ∨ ∃ v, n = .gmg v ∧ k.lab x = k.lab y) := fun {y n} hy hc => by
    have hm := List.count_pos_iff.1 hc
    cases n with
    | data v => cases hm
    | alloc b => cases hm
    | img v =>
      have h4 : ¬ (v.kids .L = some x ∧ v.kids .R = some x) := fun ⟨e1, e2⟩ => by
        have l1 := (S.imgKid y v .L x hy e1).1
        have l2 := (S.imgKid y v .R x hy e2).1
        exact absurd (child_inj (l1.symm.trans l2)).2 (by simp)
      refine ⟨?_, .inl ?_⟩
      · simp only [Node.wrefs, List.count_append, count_opt]
        by_cases e1 : v.kids .L = some x <;> by_cases e2 : v.kids .R = some x <;> simp_all
      · rcases List.mem_append.1 hm with h2 | h2
        · exact ⟨v, .L, rfl, (S.imgKid y v .L x hy (Option.mem_toList.1 h2)).1⟩
        · exact ⟨v, .R, rfl, (S.imgKid y v .R x hy (Option.mem_toList.1 h2)).1⟩
    | gmg v =>
      have hn : ∀ s, v.kids s ≠ some x := fun s e => by
        have := (S.gmgKid y v s x hy e).2.1
        rw [hk] at this; cases this
      have hi : v.img = some x := by
        rcases List.mem_append.1 hm with h2 | h2
        · rcases List.mem_append.1 h2 with h2 | h2
          · exact absurd (Option.mem_toList.1 h2) (hn _)
          · exact absurd (Option.mem_toList.1 h2) (hn _)
        · exact Option.mem_toList.1 h2
      refine ⟨?_, .inr ⟨v, rfl, (S.gmgImg y v x hy hi).1⟩⟩
      simp only [Node.wrefs, List.count_append, count_opt, if_neg (hn _), if_pos hi]; omega
  refine nsum_key k.kind [.img, .gmg] (fun y n hy => ?_) (fun y n hy hp => ?_) fun y n z m hy hp hz hq he => ?_
  · by_cases hc : 0 < n.wrefs.count x
    · exact (form hy hc).1
    · omega
  · have := S.kinds _ _ hy
    rcases (form hy hp).2 with ⟨v, s, rfl, h1⟩ | ⟨v, rfl, h1⟩ <;> simp [this, Node.kind]
  · rw [S.kinds _ _ hy, S.kinds _ _ hz] at he
    rcases (form hy hp).2 with ⟨v, s, rfl, h1⟩ | ⟨v, rfl, h1⟩ <;> rcases (form hz hq).2 with ⟨w, t, rfl, h2⟩ | ⟨w, rfl, h2⟩
    · exact S.imgUniq y v z w hy hz (child_inj (h1.symm.trans h2)).1
    · simp [Node.kind] at he
    · simp [Node.kind] at he
    · exact S.gmgUniq y v z w hy hz (h1.symm.trans h2)

/-- `Weak`s to a `GetMutGuard`: from the guard of the whole. -/
theorem Shape.gmg_weaks (S : Shape k) (hk : k.kind x = .gmg) : nsum k (fun n => n.wrefs.count x) ≤ 1 := by
  have form : ∀ {y n}, k.node y = some n → 0 < n.wrefs.count x → ∃ v s, n = .gmg v ∧ v.kids s = some x ∧ v.img ≠ some x := fun {y n} hy hc => by
    have hm := List.count_pos_iff.1 hc
    cases n with
    | data v => cases hm
    | alloc b => cases hm
    | img v =>
      have : ∀ s, v.kids s ≠ some x := fun s e => by
        have := (S.imgKid y v s x hy e).2.1
        rw [hk] at this; cases this
      rcases List.mem_append.1 hm with h2 | h2 <;> exact absurd (Option.mem_toList.1 h2) (this _)
    | gmg v =>
      have hi : v.img ≠ some x := fun e => by
        have := (S.gmgImg y v x hy e).2.1
        rw [hk] at this; cases this
      rcases List.mem_append.1 hm with h2 | h2
      · rcases List.mem_append.1 h2 with h2 | h2
        · exact ⟨v, .L, rfl, Option.mem_toList.1 h2, hi⟩
        · exact ⟨v, .R, rfl, Option.mem_toList.1 h2, hi⟩
      · exact absurd (Option.mem_toList.1 h2) hi
  refine nsum_key (fun _ => ()) [()] (fun y n hy => ?_) (fun _ _ _ _ => by simp) fun y n z m hy hp hz hq _ => ?_
  · by_cases hc : 0 < n.wrefs.count x
    · obtain ⟨v, s, rfl, hs, hi⟩ := form hy hc
      have h4 : ¬ (v.kids .L = some x ∧ v.kids .R = some x) := fun ⟨e1, e2⟩ => by
        have l1 := (S.gmgKid y v .L x hy e1).1
        have l2 := (S.gmgKid y v .R x hy e2).1
        exact absurd (child_inj (l1.symm.trans l2)).2 (by simp)
      simp only [Node.wrefs, List.count_append, count_opt, if_neg hi]
      by_cases e1 : v.kids .L = some x <;> by_cases e2 : v.kids .R = some x <;> simp_all
    · omega
  · obtain ⟨v, s, rfl, hs, _⟩ := form hy hp
    obtain ⟨w, t, rfl, ht, _⟩ := form hz hq
    exact S.gmgUniq y v z w hy hz (child_inj ((S.gmgKid y v s x hy hs).1.symm.trans (S.gmgKid z w t x hz ht).1)).1

/-- There are `Weak`s to guards only. -/
theorem Shape.no_weaks (S : Shape k) (hk : k.kind x = .data ∨ k.kind x = .alloc) : nsum k (fun n => n.wrefs.count x) = 0 := by
  refine Nat.eq_zero_of_not_pos fun hp => ?_
  obtain ⟨y, n, _, hn, hc⟩ := nsum_pos hp
  rcases S.wref_kind hn (List.count_pos_iff.1 hc) with h1 | h1 <;> rcases hk with h2 | h2 <;> rw [h2] at h1 <;> cases h1

/-- References to an allocation: from slice data that has not been dropped. -/
theorem Shape.alloc_refs (S : Shape k) (hk : k.kind x = .alloc) :
    nsum k (fun n => n.srefs.count x) ≤ ((List.range k.next).filter fun y => (k.node y).isSome && decide (k.kind y = .data)).length := by
  have form : ∀ {y n}, k.node y = some n → 0 < n.srefs.count x → n.srefs.count x ≤ 1 ∧ k.kind y = .data := fun {y n} hy hc => by
    have hm := List.count_pos_iff.1 hc
    have h1 := S.ref_kind hy hm
    cases n with
    | data v =>
      have hn : ∀ s, v.kids s ≠ some x := fun s e => by
        obtain ⟨_, _, vc, h2⟩ := S.dataKid y v s x hy e
        have := S.kinds _ _ h2
        rw [hk] at this; cases this
      refine ⟨?_, S.kinds _ _ hy⟩
      simp only [Node.srefs, List.count_append, count_opt, if_neg (hn _)]
      split <;> omega
    | img v => rw [hk] at h1; simp at h1
    | gmg v => rw [hk] at h1; simp at h1
    | alloc b => cases hm
  refine nsum_key id _ (fun y n hy => ?_) (fun y n hy hp => ?_) fun y n z m _ _ _ _ he => he
  · by_cases hc : 0 < n.srefs.count x
    · exact (form hy hc).1
    · omega
  · have hlt : y < k.next := Nat.lt_of_not_le fun hle => by rw [S.fresh y hle] at hy; cases hy
    exact List.mem_filter.2 ⟨List.mem_range.2 hlt, by simp [hy, (form hy hp).2]⟩

end
end Verif.Rc
