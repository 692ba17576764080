import Verif.Rc.Proofs.Kept
import Verif.Props.RcBounds
/-!
# C74: what handles keep in memory

Between calls, each `RcSlice` and each `WeakSlice` accounts for a logarithmic number of guards, and `WeakSlice`s keep nothing else but one dropped `RcSliceData` each. `2 ^ m` is a bound on
the number of items of the slices in question.
-/

namespace Verif
open Verif.Rc
open Verif.Spec (Side Slot Family Rng Hand World Op Obs End)
variable {α : Type} {umax : Nat} {zst : Bool} {st : State α} {m : Nat}

/-- C74: At most so many guards have not been dropped. -/
theorem C74_guards (h : Config.PReach umax zst ⟨st, []⟩) (hm : ∀ f, f < st.h.sk.nfam → (st.h.sk.fams f).rng.len ≤ 2 ^ m) :
    (st.alive .img).length ≤ st.strongs * (m + 2) ∧ (st.alive .gmg).length ≤ (st.strongs + st.weaks) * (m + 2) := by
  have S : Shape st.h.sk := h.shape
  have I := h.inv0
  have hq := tabToks_quiet umax st.hs
  constructor
  · rw [← State.sLabs_len]
    refine h.above_len hm (by simp) (fun x hx y hy hl => ?_) fun x hx => ?_
    · obtain ⟨v, hv⟩ := h.alive_img hx
      obtain ⟨w, hw⟩ := h.alive_img hy
      exact S.imgUniq x v y w hv hw hl
    · obtain ⟨v, hv⟩ := h.alive_img hx
      obtain ⟨d, i, ht, hu⟩ := I.img_held hq hv
      exact ⟨_, State.mem_sLabs ht, hu⟩
  · rw [← State.sLabs_len, ← State.wLabs_len, ← List.length_append]
    refine h.above_len hm (by simp) (fun x hx y hy hl => ?_) fun x hx => ?_
    · obtain ⟨v, hv⟩ := h.alive_gmg hx
      obtain ⟨w, hw⟩ := h.alive_gmg hy
      exact S.gmgUniq x v y w hv hw hl
    · obtain ⟨v, hv⟩ := h.alive_gmg hx
      rcases I.gmg_held hq hv with ⟨d, i, ht, hu⟩ | ⟨d, g, ht, hu⟩
      · exact ⟨_, List.mem_append_left _ (State.mem_sLabs ht), hu⟩
      · exact ⟨_, List.mem_append_right _ (State.mem_wLabs ht), hu⟩

/-- C74: At most one `RcSliceData` that has been dropped is kept in memory for each `WeakSlice`. -/
theorem C74_data (h : Config.PReach umax zst ⟨st, []⟩) : ((st.kept .data).filter fun x => decide (st.h.strong x = 0)).length ≤ st.weaks := by
  let K : List Nat := st.hs.filterMap fun o => match o with | some (.weak (some d) _) => some d | _ => none
  have hK : K.length ≤ st.weaks := by
    simp only [K]
    rw [List.length_filterMap_eq_countP, State.weaks]
    refine List.countP_mono_left fun o _ ho => ?_
    split at ho <;> simp_all
  refine Nat.le_trans (subset_len (State.kept_nodup.sublist List.filter_sublist) fun x hx => ?_) hK
  obtain ⟨h1, h2⟩ := List.mem_filter.1 hx
  obtain ⟨_, h3, h4⟩ := State.mem_kept.1 h1
  have h2 : st.h.strong x = 0 := by simpa using h2
  obtain ⟨g, hg⟩ := h.dataHeld h4 (by omega)
  obtain ⟨j, hj⟩ := mem_tabToks_weak.1 hg
  exact List.mem_filterMap.2 ⟨_, mem_of_join hj, rfl⟩

/-- C74: If `WeakSlice`s are all that is left, then they keep

* no items, no arrays, and nothing that can be upgraded to,
* one block of memory for slice data each,
* and at most so many blocks for guards. -/
theorem C74_weak (h : Config.PReach umax zst ⟨st, []⟩) (hw : ∀ k x, st.get k = some x → ∃ d g, x = .weak d g)
    (hm : ∀ f, f < st.h.sk.nfam → (st.h.sk.fams f).rng.len ≤ 2 ^ m) :
    (∀ b i a, st.h.slot b i ≠ .live a) ∧ (∀ b, st.h.sk.mem b = false) ∧ st.kept .alloc = [] ∧ st.alive .data = [] ∧ (st.kept .data).length ≤ st.weaks ∧
    st.alive .img = [] ∧ (st.kept .img).length ≤ st.weaks * (m + 2) ∧
    (st.alive .gmg).length ≤ st.weaks * (m + 2) ∧ (st.kept .gmg).length ≤ 3 * (st.weaks * (m + 2)) := by
  have S : Shape st.h.sk := h.shape
  have I := h.inv0
  have hq := tabToks_quiet umax st.hs
  have toks : ∀ t ∈ tabToks umax st.hs, ∃ d g, t = .weak d g := fun t ht => by
    obtain ⟨k, x, hk, rfl⟩ := mem_tabToks.1 ht
    obtain ⟨d, g, rfl⟩ := hw k x hk
    exact ⟨d, g, rfl⟩
  have noS : ∀ d i, .strong d i ∉ tabToks umax st.hs := fun d i ht => by obtain ⟨_, _, e⟩ := toks _ ht; cases e
  have noR : ∀ r, .reg r ∉ tabToks umax st.hs := fun r ht => by obtain ⟨_, _, e⟩ := toks _ ht; cases e
  have noD : ∀ x v, st.h.sk.node x ≠ some (.data v) := fun x v hx => by
    rcases I.data_held x hx with ⟨d, i, ht, _⟩ | ⟨y, _, ht, _⟩
    · exact noS d i ht
    · exact hq y ht
  have noI : ∀ x v, st.h.sk.node x ≠ some (.img v) := fun x v hx => by
    obtain ⟨d, i, ht, _⟩ := I.img_held hq hx
    exact noS d i ht
  have noA : ∀ x b, st.h.sk.node x ≠ some (.alloc b) := fun x b hx => by
    rcases I.holder hx with ⟨y, n, hy, hmm⟩ | hmm
    · cases n with
      | data v => exact noD y v hy
      | img v => exact noI y v hy
      | gmg v =>
        have := S.ref_kind hy hmm
        rw [S.kinds _ _ hx] at this
        simp [Node.kind] at this
      | alloc b => cases hmm
    · obtain ⟨t, ht, hxt⟩ := List.mem_flatMap.1 hmm
      obtain ⟨d, g, rfl⟩ := toks t ht
      have : x = g := by simpa [Tok.S] using hxt
      subst this
      have := (I.toks _ ht).1
      rw [S.kinds _ _ hx] at this
      simp [Node.kind] at this
  have s0 : st.strongs = 0 := by
    rw [State.strongs, List.countP_eq_zero]
    intro o ho hs
    split at hs
    · obtain ⟨k, hk⟩ := List.mem_iff_getElem?.1 ho
      obtain ⟨d, g, e⟩ := hw k _ (by rw [State.get, hk]; rfl)
      cases e
    · cases hs
  have dead : ∀ {kd}, (∀ x n, st.h.sk.node x = some n → n.kind ≠ kd) → st.alive kd = [] := fun hk =>
    List.eq_nil_iff_forall_not_mem.2 fun x hx => by
      obtain ⟨n, hn, e⟩ := h.alive_node hx
      exact hk x n hn e
  have aD : st.alive .data = [] := dead fun x n hn => by cases n <;> simp [Node.kind]; exact noD _ _ hn
  have aI : st.alive .img = [] := dead fun x n hn => by cases n <;> simp [Node.kind]; exact noI _ _ hn
  have aA : st.alive .alloc = [] := dead fun x n hn => by cases n <;> simp [Node.kind]; exact noA _ _ hn
  have gm := (C74_guards h hm).2
  rw [s0, Nat.zero_add] at gm
  have zero : ∀ {kd x}, st.alive kd = [] → x ∈ st.kept kd → st.h.strong x = 0 ∧ 0 < st.h.weak x := fun {kd x} ha hx => by
    obtain ⟨h1, h2, h3⟩ := State.mem_kept.1 hx
    have : ¬ 0 < st.h.strong x := fun hp => by
      have : x ∈ st.alive kd := State.mem_alive.2 ⟨h1, hp, h3⟩
      rw [ha] at this; cases this
    omega
  have gnode : ∀ {y v}, st.h.sk.node y = some (.gmg v) → y ∈ st.alive .gmg := fun {y v} hy =>
    State.mem_alive.2 ⟨I.good.ledger.lt hy, I.good.ledger.strong_pos hy, S.kinds _ _ hy⟩
  refine ⟨fun b i a ha => ?_, fun b => ?_, ?_, aD, ?_, aI, Nat.le_trans ?_ gm, gm, Nat.le_trans ?_ (Nat.mul_le_mul_left 3 gm)⟩
  · obtain ⟨t, ht, hc⟩ := I.live_cov hq ha
    obtain ⟨d, g, rfl⟩ := toks t ht
    exact hc
  · rw [← Bool.not_eq_true]
    intro hb
    obtain ⟨a, ha, _⟩ := I.mem_held hb
    exact noA a b ha
  · refine List.eq_nil_iff_forall_not_mem.2 fun x hx => ?_
    obtain ⟨_, h2⟩ := zero aA hx
    have hk := (State.mem_kept.1 hx).2.2
    obtain ⟨y, n, hy, hmm⟩ := h.held (by rw [hk]; simp) h2
    have hk : st.h.sk.kind x = .alloc := hk
    rcases S.wref_kind hy hmm with h3 | h3 <;> rw [hk] at h3 <;> cases h3
  · have := C74_data h
    rwa [List.filter_eq_self.2 fun x hx => by simpa using (zero aD hx).1] at this
  · rw [← List.length_map (f := fun x => x)]
    refine Nat.le_trans (subset_len (m := (st.alive .gmg).flatMap fun y => match st.h.sk.node y with | some (.gmg v) => v.img.toList | _ => []) (by simpa using State.kept_nodup)
      fun x hx => ?_) (Nat.le_trans (flat_len (b := 1) fun y _ => ?_) (Nat.le_of_eq (Nat.mul_one _)))
    · have hx : x ∈ st.kept .img := by simpa using hx
      obtain ⟨_, h2⟩ := zero aI hx
      rcases h.imgHeld (State.mem_kept.1 hx).2.2 (.inr h2) with ⟨v, hv⟩ | ⟨y, v, t, hy, _⟩ | ⟨y, v, hy, he, _⟩
      · exact absurd hv (noI _ _)
      · exact absurd hy (noI _ _)
      · have hy : st.h.sk.node y = some (.gmg v) := hy
        refine List.mem_flatMap.2 ⟨y, gnode hy, ?_⟩
        rw [hy]; simpa using he
    · split
      · next v _ => cases v.img <;> simp
      · simp
  · refine Nat.le_trans (subset_len (m := (st.alive .gmg).flatMap fun y => match st.h.sk.node y with | some (.gmg v) => y :: ((v.kids .L).toList ++ (v.kids .R).toList) | _ => [])
      State.kept_nodup fun x hx => ?_) (Nat.le_trans (flat_len (b := 3) fun y _ => ?_) (Nat.le_of_eq (Nat.mul_comm _ _)))
    · obtain ⟨h1, h2, h3⟩ := State.mem_kept.1 hx
      have h2 : st.h.sk.node x ≠ none ∨ 0 < st.h.weak x := h2.imp_left fun hp => by
        obtain ⟨n, hn⟩ := I.good.ledger.node_of_pos hp
        rw [hn]; simp
      rcases h.gmgHeld h3 h2 with ⟨v, hv, _⟩ | ⟨y, v, t, hy, hk, _⟩
      · have hv : st.h.sk.node x = some (.gmg v) := hv
        exact List.mem_flatMap.2 ⟨x, gnode hv, by rw [hv]; simp⟩
      · have hy : st.h.sk.node y = some (.gmg v) := hy
        exact List.mem_flatMap.2 ⟨y, gnode hy, by rw [hy]; cases t <;> simp [hk]⟩
    · split
      · next v _ => cases v.kids .L <;> cases v.kids .R <;> simp
      · simp

/-! ## Programs that meet the hypotheses -/

namespace Rc

/-- The halves of a slice of two items and the left half of the left half are cloned. `w` is a `WeakSlice` of the latter. Then all `RcSlice`s are dropped. -/
def onlyWeak : List (PAct Nat) :=
  [.op (.rcNew [1, 2]), .op (.cloneSide .L 0), .op (.cloneSide .R 0), .op (.cloneSide .L 1), .op (.downgrade 3), .op (.drop 3)] ++ List.replicate 4 .drop ++
    [.op (.drop 2)] ++ List.replicate 5 .drop ++ [.op (.drop 1)] ++ List.replicate 4 .drop ++ [.op (.drop 0)] ++ List.replicate 17 .drop

theorem onlyWeak_reach : Config.PReach 100 false ⟨(fully onlyWeak).st, []⟩ := fully_reach (l := onlyWeak) rfl

/-- It meets the hypotheses of `C74_weak` for `m = 1`. -/
example : (∀ k x, (fully onlyWeak).st.get k = some x → ∃ d g, x = .weak d g) ∧ ∀ f, f < (fully onlyWeak).st.h.sk.nfam → ((fully onlyWeak).st.h.sk.fams f).rng.len ≤ 2 ^ 1 := by
  have e : (fully onlyWeak).st.hs = [none, none, none, none, some (.weak (some 10) 11)] := by decide +kernel
  refine ⟨fun k x hx => ?_, by decide +kernel⟩
  rw [State.get, e] at hx
  match k, hx with
  | 4, hx => cases hx; exact ⟨_, _, rfl⟩
  | 0, hx | 1, hx | 2, hx | 3, hx => cases hx
  | _ + 5, hx => cases hx

/-- All bounds but the last one are attained. (One of the `GetMutGuard`s kept has been dropped.) -/
example : (fully onlyWeak).st.weaks = 1 ∧ ((fully onlyWeak).st.kept .data).length = 1 ∧ ((fully onlyWeak).st.kept .img).length = 1 * (1 + 2) ∧
    ((fully onlyWeak).st.alive .gmg).length = 1 * (1 + 2) ∧ ((fully onlyWeak).st.kept .gmg).length = 4 := by decide +kernel

/-- … and before they were dropped: four `RcSlice`s and a `WeakSlice` with four guards of either kind. -/
example : (fully (onlyWeak.take 5)).st.strongs = 4 ∧ ((fully (onlyWeak.take 5)).st.alive .img).length = 4 ∧ ((fully (onlyWeak.take 5)).st.alive .gmg).length = 4 := by decide +kernel

end Rc
end Verif
