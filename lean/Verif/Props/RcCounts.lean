import Verif.Rc.Proofs.Counts
import Verif.Props.RcKept
/-!
# C75: reference counts stay small

At any time, no reference count exceeds the number of handles and of pending drops by more than a constant; the references to an array are in addition one for each
subslice in memory. So none overflows, unless about `usize::MAX` handles are made and leaked. (The counts are those between the calls and the drops that make up a
program. Within a call a count may be larger by one.)
-/

namespace Verif
open Verif.Rc
open Verif.Spec (Side Slot Family Rng Hand World Op Obs End)
variable {α : Type} {umax : Nat} {zst : Bool} {c : Config α}

theorem C75_toks (h : Config.PReach umax zst c) : Inv c.st.h (tabToks umax c.st.hs ++ toksOf c.tasks) := by
  obtain ⟨w, _, R⟩ := preach_sim h
  exact R.inv

theorem tok_parts (umax : Nat) (b : Nat) (a : Option Nat) (it : SliceItemsParts) : ∃ r, Handle.tok umax (.parts b a it) = .reg r := by
  rw [Handle.tok]; split <;> exact ⟨_, rfl⟩

theorem C75_hs {p : Tok → Bool} {q : Option Handle → Bool} (hq : ∀ x, p (Handle.tok umax x) = true → q (some x) = true) (hs : List (Option Handle)) :
    (tabToks umax hs).countP p ≤ hs.countP q := by
  rw [tabToks, List.countP_filterMap]
  refine List.countP_mono_left fun o _ ho => ?_
  cases o with
  | none => simp at ho
  | some x => exact hq x (by simpa using ho)

theorem C75_S {p : Tok → Bool} {q : Option Handle → Bool} {x : Nat} (h : Config.PReach umax zst c)
    (hp : ∀ t, TokOK c.st.h.sk t → t.S.count x ≤ if p t then 1 else 0) (hq : ∀ y, p (Handle.tok umax y) = true → q (some y) = true) :
    (Ss (tabToks umax c.st.hs ++ toksOf c.tasks)).count x ≤ c.st.hs.countP q + c.tasks.length := by
  have I := C75_toks h
  have h1 := count_flat (F := Tok.S) (p := p) (x := x) fun t ht => hp t (I.toks t ht)
  have h2 := C75_hs hq c.st.hs
  have h3 := toksOf_len c.tasks
  have h4 := List.countP_le_length (p := p) (l := toksOf c.tasks)
  rw [List.countP_append] at h1
  have h1 : (Ss (tabToks umax c.st.hs ++ toksOf c.tasks)).count x ≤ _ := h1
  omega

theorem C75_W {x : Nat} : (Ws (tabToks umax c.st.hs ++ toksOf c.tasks)).count x ≤ c.st.weaks := by
  have h1 := count_flat (F := Tok.W) (x := x) (p := fun t => match t with | .weak _ _ => true | _ => false)
    (T := tabToks umax c.st.hs ++ toksOf c.tasks) fun t _ => by
      cases t with
      | weak d g => simp only [Tok.W, count_opt]; split <;> simp
      | _ => simp [Tok.W]
  have h2 : (toksOf c.tasks).countP (fun t => match t with | .weak _ _ => true | _ => false) = 0 := by
    rw [List.countP_eq_zero]
    intro t ht
    obtain ⟨u, _, hu⟩ := List.mem_flatMap.1 ht
    cases u <;> simp [Task.toks] at hu <;> subst hu <;> simp
  rw [List.countP_append, h2, Nat.add_zero] at h1
  exact Nat.le_trans h1 (C75_hs (fun y hy => by
    cases y with
    | weak d g => rfl
    | parts b a it => obtain ⟨r, e⟩ := tok_parts umax b a it; rw [e] at hy; cases hy
    | _ => cases hy) _)

/-- C75: `RcSliceData`. -/
theorem C75_data (h : Config.PReach umax zst c) {x : Nat} (hk : c.st.h.sk.kind x = .data) :
    c.st.h.strong x ≤ c.st.strongs + c.tasks.length + 1 ∧ c.st.h.weak x ≤ c.st.weaks := by
  have L := (C75_toks h).good.ledger
  have S := h.shape
  constructor
  · rw [L.s x]
    have h1 := S.data_refs hk
    have h2 : (Ss (tabToks umax c.st.hs ++ toksOf c.tasks)).count x ≤ c.st.strongs + c.tasks.length := C75_S (p := fun t => match t with | .strong _ _ | .loose _ => true | _ => false) (x := x) h
      (q := fun o => match o with | some (.strong _ _) => true | _ => false) (fun t ht => by
        cases t with
        | strong d i =>
          have : i ≠ x := fun e => by rw [← e] at hk; exact absurd (ht.2.1.symm.trans hk) (by simp)
          simp only [Tok.S, List.count_cons, List.count_nil]; simp [this]; split <;> omega
        | weak d g =>
          have : g ≠ x := fun e => by rw [← e] at hk; exact absurd (ht.1.symm.trans hk) (by simp)
          simp [Tok.S, this]
        | loose y => simp only [Tok.S, List.count_cons, List.count_nil]; split <;> simp
        | reg r =>
          have : r.alloc ≠ some x := fun e => by have := S.kinds _ _ (ht.1 x e); rw [hk] at this; cases this
          simp [Tok.S, count_opt, this]) fun y hy => by
      cases y with
      | strong d i => rfl
      | parts b a it => obtain ⟨r, e⟩ := tok_parts umax b a it; rw [e] at hy; cases hy
      | _ => cases hy
    omega
  · rw [L.w x, S.no_weaks (.inl hk), Nat.zero_add]
    exact C75_W

/-- C75: `IntoMutGuard`. -/
theorem C75_img (h : Config.PReach umax zst c) {x : Nat} (hk : c.st.h.sk.kind x = .img) :
    c.st.h.strong x ≤ c.st.strongs + c.tasks.length + 2 ∧ c.st.h.weak x ≤ 2 := by
  have I := C75_toks h
  have L := I.good.ledger
  have S := h.shape
  constructor
  · rw [L.s x]
    have h1 := S.img_refs hk
    have h2 : (Ss (tabToks umax c.st.hs ++ toksOf c.tasks)).count x ≤ c.st.strongs + c.tasks.length := C75_S (p := fun t => match t with | .strong _ _ | .loose _ => true | _ => false) (x := x) h
      (q := fun o => match o with | some (.strong _ _) => true | _ => false) (fun t ht => by
        cases t with
        | strong d i =>
          have : d ≠ x := fun e => by rw [← e] at hk; exact absurd (ht.1.symm.trans hk) (by simp)
          simp only [Tok.S, List.count_cons, List.count_nil]; simp [this]; split <;> omega
        | weak d g =>
          have : g ≠ x := fun e => by rw [← e] at hk; exact absurd (ht.1.symm.trans hk) (by simp)
          simp [Tok.S, this]
        | loose y => simp only [Tok.S, List.count_cons, List.count_nil]; split <;> simp
        | reg r =>
          have : r.alloc ≠ some x := fun e => by have := S.kinds _ _ (ht.1 x e); rw [hk] at this; cases this
          simp [Tok.S, count_opt, this]) fun y hy => by
      cases y with
      | strong d i => rfl
      | parts b a it => obtain ⟨r, e⟩ := tok_parts umax b a it; rw [e] at hy; cases hy
      | _ => cases hy
    omega
  · rw [L.w x]
    have h1 := S.img_weaks hk
    have h2 : (Ws (tabToks umax c.st.hs ++ toksOf c.tasks)).count x = 0 := List.count_eq_zero.2 fun hm => by
      obtain ⟨t, ht, hx⟩ := List.mem_flatMap.1 hm
      cases t with
      | weak d g =>
        simp only [Tok.W, Option.mem_toList] at hx
        have := ((I.toks _ ht).2.2 x hx).1
        rw [hk] at this; cases this
      | _ => cases hx
    omega

/-- C75: `GetMutGuard`. -/
theorem C75_gmg (h : Config.PReach umax zst c) {x : Nat} (hk : c.st.h.sk.kind x = .gmg) :
    c.st.h.strong x ≤ c.st.weaks + c.tasks.length + 3 ∧ c.st.h.weak x ≤ 1 := by
  have I := C75_toks h
  have L := I.good.ledger
  have S := h.shape
  constructor
  · rw [L.s x]
    have h1 := S.gmg_refs hk
    have h2 : (Ss (tabToks umax c.st.hs ++ toksOf c.tasks)).count x ≤ c.st.weaks + c.tasks.length := C75_S (p := fun t => match t with | .weak _ _ | .loose _ => true | _ => false) (x := x) h
      (q := fun o => match o with | some (.weak _ _) => true | _ => false) (fun t ht => by
        cases t with
        | strong d i =>
          have h1 : d ≠ x := fun e => by rw [← e] at hk; exact absurd (ht.1.symm.trans hk) (by simp)
          have h2 : i ≠ x := fun e => by rw [← e] at hk; exact absurd (ht.2.1.symm.trans hk) (by simp)
          simp [Tok.S, h1, h2]
        | weak d g => simp only [Tok.S, List.count_cons, List.count_nil]; split <;> simp
        | loose y => simp only [Tok.S, List.count_cons, List.count_nil]; split <;> simp
        | reg r =>
          have : r.alloc ≠ some x := fun e => by have := S.kinds _ _ (ht.1 x e); rw [hk] at this; cases this
          simp [Tok.S, count_opt, this]) fun y hy => by
      cases y with
      | weak d g => rfl
      | parts b a it => obtain ⟨r, e⟩ := tok_parts umax b a it; rw [e] at hy; cases hy
      | _ => cases hy
    omega
  · rw [L.w x]
    have h1 := S.gmg_weaks hk
    have h2 : (Ws (tabToks umax c.st.hs ++ toksOf c.tasks)).count x = 0 := List.count_eq_zero.2 fun hm => by
      obtain ⟨t, ht, hx⟩ := List.mem_flatMap.1 hm
      cases t with
      | weak d g =>
        simp only [Tok.W, Option.mem_toList] at hx
        have := ((I.toks _ ht).2.2 x hx).1
        rw [hk] at this; cases this
      | _ => cases hx
    omega

/-- C75: `SliceAlloc`. -/
theorem C75_alloc (h : Config.PReach umax zst c) {x : Nat} (hk : c.st.h.sk.kind x = .alloc) :
    c.st.h.strong x ≤ c.st.uniqs + c.tasks.length + (c.st.alive .data).length ∧ c.st.h.weak x = 0 := by
  have I := C75_toks h
  have L := I.good.ledger
  have S := h.shape
  constructor
  · rw [L.s x]
    have h1 := S.alloc_refs hk
    have e : ((List.range c.st.h.sk.next).filter fun y => (c.st.h.sk.node y).isSome && decide (c.st.h.sk.kind y = .data)) = c.st.alive .data := by
      rw [State.alive]
      congr 1; funext y
      congr 1
      have := L.live y
      cases hn : (c.st.h.sk.node y).isSome
      · rw [hn] at this; simpa using this
      · rw [hn] at this; simpa using this
    rw [e] at h1
    have h2 : (Ss (tabToks umax c.st.hs ++ toksOf c.tasks)).count x ≤ c.st.uniqs + c.tasks.length := C75_S (p := fun t => match t with | .reg _ | .loose _ => true | _ => false) (x := x) h
      (q := fun o => match o with | some (.uniq _) | some (.iter _) | some (.parts _ _ _) => true | _ => false) (fun t ht => by
        cases t with
        | strong d i =>
          have h1 : d ≠ x := fun e => by rw [← e] at hk; exact absurd (ht.1.symm.trans hk) (by simp)
          have h2 : i ≠ x := fun e => by rw [← e] at hk; exact absurd (ht.2.1.symm.trans hk) (by simp)
          simp [Tok.S, h1, h2]
        | weak d g =>
          have : g ≠ x := fun e => by rw [← e] at hk; exact absurd (ht.1.symm.trans hk) (by simp)
          simp [Tok.S, this]
        | loose y => simp only [Tok.S, List.count_cons, List.count_nil]; split <;> simp
        | reg r => simp only [Tok.S, count_opt]; split <;> simp) fun y hy => by
      cases y with
      | strong d i => cases hy
      | weak d g => cases hy
      | _ => rfl
    omega
  · rw [L.w x, S.no_weaks (.inr hk), Nat.zero_add]
    exact List.count_eq_zero.2 fun hm => by
      obtain ⟨t, ht, hx⟩ := List.mem_flatMap.1 hm
      cases t with
      | weak d g =>
        simp only [Tok.W, Option.mem_toList] at hx
        have := ((I.toks _ ht).2.2 x hx).1
        rw [hk] at this; cases this
      | _ => cases hx

end Verif

/-! ## Programs that meet the hypotheses -/

namespace Verif.Rc
open Verif.Spec (Op)

/-- The left half of a slice of two items, cloned three times, with two `WeakSlice`s; and an `RcSliceMut` cut into two. -/
def manyRefs : List (PAct Nat) :=
  [.op (.rcNew [1, 2]), .op (.cloneSide .L 0), .op (.clone 1), .op (.clone 1), .op (.downgrade 1), .op (.clone 4), .op (.mutNew [3, 4, 5]), .op (.splitOff .L 6)]

theorem manyRefs_reach : Config.PReach 100 false ⟨(fully manyRefs).st, []⟩ := fully_reach (l := manyRefs) rfl

/-- Numbers of handles. -/
example : (fully manyRefs).st.strongs = 4 ∧ (fully manyRefs).st.weaks = 2 ∧ (fully manyRefs).st.uniqs = 2 := by decide +kernel
/-- The `RcSliceData` of the left half: three handles, the slice it is a half of; two `WeakSlice`s. -/
example : (fully manyRefs).st.h.sk.kind 4 = .data ∧ (fully manyRefs).st.h.strong 4 = 4 ∧ (fully manyRefs).st.h.weak 4 = 2 := by decide +kernel
/-- Its `IntoMutGuard`: three handles; the guard of the whole, and the `GetMutGuard`. -/
example : (fully manyRefs).st.h.sk.kind 6 = .img ∧ (fully manyRefs).st.h.strong 6 = 3 ∧ (fully manyRefs).st.h.weak 6 = 2 := by decide +kernel
/-- Its `GetMutGuard`: two handles and the `IntoMutGuard`; the guard of the whole. -/
example : (fully manyRefs).st.h.sk.kind 5 = .gmg ∧ (fully manyRefs).st.h.strong 5 = 3 ∧ (fully manyRefs).st.h.weak 5 = 1 := by decide +kernel
/-- The arrays: the slice data of the whole and of the left half; the two `RcSliceMut`s. -/
example : (fully manyRefs).st.h.sk.kind 0 = .alloc ∧ (fully manyRefs).st.h.strong 0 = 2 ∧ (fully manyRefs).st.h.sk.kind 7 = .alloc ∧ (fully manyRefs).st.h.strong 7 = 2 := by
  decide +kernel

end Verif.Rc
