import Verif.Arc.Kept
import Verif.Arc.Proofs.Counts
import Verif.Arc.Proofs.SeqQuiet
import Verif.Rc.Proofs.Kept
/-!
# What handles of the Arc version keep in memory: proofs
-/

namespace Verif.Arc
open Verif.Spec (Side Slot Family Rng End)
open Verif.Rc
variable {α : Type} {P : Rules α} {zst : Bool} {c : Conf α}

theorem Conf.mem_liveGuards {g : Nat} : g ∈ c.liveGuards ↔ g < c.a.ng ∧ ∃ v, c.a.guard g = some v := by
  simp only [Conf.liveGuards, List.mem_filter, List.mem_range, Option.isSome_iff_exists]

theorem Conf.liveGuards_nodup : c.liveGuards.Nodup := List.nodup_range.sublist List.filter_sublist

/-- A guard is alive because somebody holds it or the guard of a part. -/
theorem Conf.PReach.guard_held (hP : PTame P) (h : Conf.PReach P zst c) {m : Nat} (hd : ∀ x, x < c.a.b.sk.next → c.a.b.sk.kind x = .data → (c.a.b.sk.lab x).path.length ≤ m) :
    ∀ (n : Nat) {g : Nat} {v : GuardV}, c.a.guard g = some v → m < (c.a.b.sk.lab (c.a.gOf g)).path.length + n →
      ∃ g' ∈ aGd c.T, (c.a.b.sk.lab (c.a.gOf g)).up (c.a.b.sk.lab (c.a.gOf g')) := by
  have B := h.BI hP
  have F := (h.IA' hP).gf.gf
  intro n
  induction n with
  | zero =>
    intro g v hg hn
    have := F.gof g (F.lt g v hg)
    have := hd _ this.1 this.2
    omega
  | succ n ih =>
    intro g v hg hn
    by_cases hm : g ∈ aGd c.T
    · exact ⟨g, hm, rfl, List.suffix_refl _⟩
    · have h1 := B.gi.strong g
      have h2 := (B.gi.live g).2 ⟨v, hg⟩
      rw [List.count_eq_zero.2 hm] at h1
      have h3 : 0 < prefs c.a.guard c.a.ng g := by omega
      simp only [prefs, List.countP_pos_iff, List.mem_range] at h3
      obtain ⟨x, hx, h4⟩ := h3
      cases hv : c.a.guard x with
      | none => rw [hv] at h4; cases h4
      | some u =>
        rw [hv] at h4
        have hp : u.parent = some g := by simpa using h4
        obtain ⟨_, h5⟩ := F.link1 x u g hv hp
        obtain ⟨_, _, _, s, h6⟩ := B.par.par _ _ h5
        have hup : (c.a.b.sk.lab (c.a.gOf g)).up (c.a.b.sk.lab (c.a.gOf x)) := by rw [h6]; exact Lab.up_child _ _
        have hl : (c.a.b.sk.lab (c.a.gOf x)).path.length = (c.a.b.sk.lab (c.a.gOf g)).path.length + 1 := by rw [h6]; simp [Lab.child]
        obtain ⟨g', h7, h8⟩ := ih hv (by omega)
        exact ⟨g', h7, hup.1.trans h8.1, hup.2.trans h8.2⟩

open Classical in
theorem Conf.PReach.guards_le (hP : PTame P) (h : Conf.PReach P zst c) {m : Nat}
    (hd : ∀ x, x < c.a.b.sk.next → c.a.b.sk.kind x = .data → (c.a.b.sk.lab x).path.length ≤ m) : c.liveGuards.length ≤ (aGd c.T).length * (m + 1) := by
  have G := (h.IA' hP).gf.gf
  let F : Nat → List Nat := fun g' => c.liveGuards.filter fun g => decide ((c.a.b.sk.lab (c.a.gOf g)).up (c.a.b.sk.lab (c.a.gOf g')))
  have memF : ∀ {l x}, x ∈ F l ↔ x ∈ c.liveGuards ∧ (c.a.b.sk.lab (c.a.gOf x)).up (c.a.b.sk.lab (c.a.gOf l)) := fun {l x} => by
    simp only [F, List.mem_filter, decide_eq_true_eq]
  refine Nat.le_trans (subset_len Conf.liveGuards_nodup (m := (aGd c.T).flatMap F) fun g hg => ?_) (flat_len fun l _ => ?_)
  · obtain ⟨_, v, hv⟩ := Conf.mem_liveGuards.1 hg
    obtain ⟨g', h1, h2⟩ := h.guard_held hP hd (m + 1) hv (by omega)
    exact List.mem_flatMap.2 ⟨g', h1, memF.2 ⟨hg, h2⟩⟩
  · rw [← List.length_map (f := fun x => (c.a.b.sk.lab (c.a.gOf x)).path.length)]
    have nd : (F l).Nodup := Conf.liveGuards_nodup.sublist List.filter_sublist
    have h0 : ((F l).map fun x => (c.a.b.sk.lab (c.a.gOf x)).path.length).Nodup := by
      refine List.pairwise_map.2 (nd.imp_of_mem fun {x y} hx hy hne he => hne ?_)
      obtain ⟨h1, h2⟩ := memF.1 hx
      obtain ⟨h3, h4⟩ := memF.1 hy
      obtain ⟨a1, v, hv⟩ := Conf.mem_liveGuards.1 h1
      obtain ⟨a2, u, hu⟩ := Conf.mem_liveGuards.1 h3
      have b1 := G.gof x a1
      have b2 := G.gof y a2
      exact h.GU hP x y v u hv hu ((h.DI hP).hist.uniq _ _ b1.1 b2.1 b1.2 b2.2 (up_inj h2 h4 he))
    refine nodup_lt h0 fun y hy => ?_
    · obtain ⟨x, hx, rfl⟩ := List.mem_map.1 hy
      have b := G.gof x (Conf.mem_liveGuards.1 (memF.1 hx).1).1
      have := hd _ b.1 b.2
      omega

/-! ## Guards held -/

theorem pc_Gl (pc : Pc α) : (aGd (pcT pc)).length ≤ if !pc.isDone then 1 else 0 := by
  have h2 : ∀ (g : Nat), (AT.gd g).gds = [g] := fun _ => rfl
  have h3 : ∀ (g : Nat), (AT.ref g).gds = [] := fun _ => rfl
  have h4 : ∀ (g : Reg), (AT.reg g).gds = [] := fun _ => rfl
  have h5 : ∀ o : Option Nat, (aGd (o.toList.map AT.gd)).length ≤ 1 := fun o => by cases o <;> simp [AT.gds]
  cases pc <;> simp only [pcT, aGd_cons, aGd_append, aGd_nil, aGd_frT, aGd_fgT, aGd_own, h2, h3, h4, List.append_nil, List.nil_append, Pc.isDone, Bool.not_false, Bool.not_true,
    if_true, List.length_nil, aGd_wk] <;> first | exact Nat.le_refl _ | exact h5 _ | exact Nat.zero_le _

theorem atask_Gl (t : ATask) : (aGd (ataskT t)).length ≤ 1 := by
  cases t with
  | base t => cases t <;> simp [ataskT, taskT, AT.gds]
  | slice d g => exact Nat.le_refl 1
  | guard g => exact Nat.le_refl 1

theorem flat_map_le {β γ : Type} {F : β → List γ} {f : β → Nat} : ∀ {l : List β}, (∀ x ∈ l, (F x).length ≤ f x) → (l.flatMap F).length ≤ (l.map f).sum
  | [], _ => Nat.le_refl _
  | a :: l, h => by
    have h1 := flat_map_le (F := F) (f := f) (l := l) fun x hx => h x (List.mem_cons_of_mem _ hx)
    have h2 := h a (List.mem_cons_self ..)
    rw [List.flatMap_cons, List.length_append, List.map_cons, List.sum_cons]; omega

theorem sum_count {β : Type} {q : β → Bool} : ∀ {l : List β}, (l.map fun x => if q x then 1 else 0).sum = l.countP q
  | [] => rfl
  | a :: l => by rw [List.map_cons, List.sum_cons, List.countP_cons, sum_count (l := l), Nat.add_comm]

theorem Conf.held_le : (aGd c.T).length ≤ c.strongs + c.active + c.pending := by
  have e1 : ((c.hs.flatMap slotT).flatMap AT.gds).length ≤ c.strongs := by
    rw [List.flatMap_assoc, Conf.strongs, ← sum_count]
    refine flat_map_le fun o _ => ?_
    cases o with
    | none => simp [slotT]
    | some e =>
      obtain ⟨hd, b⟩ := e
      cases hd with
      | strong d g => simp [slotT, entT, AT.gds]
      | weak d g => cases g <;> simp [slotT, entT, AT.gds]
      | uniq r => simp [slotT, entT, AT.gds]
  have e2 : ((c.calls.flatMap callT).flatMap AT.gds).length ≤ c.active + c.pending := by
    rw [List.flatMap_assoc, Conf.active, Conf.pending, ← sum_split]
    refine flat_map_le fun cl _ => ?_
    have h1 := pc_Gl cl.pc
    have h2 := flat_len (l := cl.tasks) (F := fun t => aGd (ataskT t)) (b := 1) fun t _ => atask_Gl t
    have e : (callT cl).flatMap AT.gds = (cl.tasks.flatMap fun t => aGd (ataskT t)) ++ aGd (pcT cl.pc) := by
      simp only [callT, List.flatMap_append, List.flatMap_assoc]; rfl
    rw [e, List.length_append]; omega
  rw [aGd, Conf.T, List.flatMap_append, List.length_append]; omega

/-! ## Slice data that is held by nothing but handles -/

theorem HInv.data_holder {h : Heap α} {T : List AT} (I : HInv h T) {x : Nat} (hk : h.sk.kind x = .data) (hx : (h.sk.node x).isSome = true) :
    .ref x ∈ T ∨ ∃ y w s, h.sk.node y = some (.data w) ∧ w.kids s = some x := by
  have S := I.good.shape
  have h1 := (I.good.ledger.live x).1 hx
  have h2 := I.good.ledger.s x
  by_cases h3 : x ∈ aS T
  · left
    obtain ⟨t, ht, hm⟩ := List.mem_flatMap.1 h3
    cases t with
    | ref d => have : x = d := by simpa [AT.S] using hm
               exact this ▸ ht
    | reg r =>
      have h4 : r.alloc = some x := by simpa [AT.S] using hm
      have := S.kinds _ _ ((I.regs r ht).1 x h4)
      rw [hk] at this; cases this
    | _ => simp [AT.S] at hm
  · right
    rw [List.count_eq_zero.2 h3] at h2
    obtain ⟨y, n, _, hy, hp⟩ := nsum_pos (k := h.sk) (f := fun n => n.srefs.count x) (by omega)
    have h1 := S.ref_kind hy (List.count_pos_iff.1 hp)
    cases n with
    | data u =>
      rcases h1 with ⟨s, h1, _⟩ | h1
      · exact ⟨y, u, s, hy, h1⟩
      · rw [hk] at h1; cases h1.2
    | img u => simp [hk] at h1
    | gmg u => simp [hk] at h1
    | alloc b => exact h1.elim

end Verif.Arc
