import Verif.Arc.Proofs.Families
import Verif.Arc.Proofs.Threads
import Verif.Props.ArcDrop
/-!
# C65: exclusive access to a slice that is one's own is granted

If a thread has the only handle to a slice, and nobody else has a handle to something it was cut from or that was
cut from it, then its calls of `get_mut` and `into_mut` are granted, whatever other threads do in the meantime with other slices -
also with slices of other items of the same array, and also if destructors panic.
-/

namespace Verif
open Arc
open Spec (Side Slot Rng End)
open Rc (Lab)
variable {α : Type} {P : Rules α} {zst : Bool} {c0 c1 c2 c3 : Conf α} {W : Nat → Nat → Prop}

namespace Arc.Conf

/-- One of the slices `d`, `d'` is the other one, or was obtained from it by taking halves. -/
def Kin (c : Conf α) (d d' : Nat) : Prop := (c.a.b.sk.lab d).up (c.a.b.sk.lab d') ∨ (c.a.b.sk.lab d').up (c.a.b.sk.lab d)

/-- Slices that were obtained from the same array. -/
def SameArray (c : Conf α) (d d' : Nat) : Prop := (c.a.b.sk.lab d).fam = (c.a.b.sk.lab d').fam

/-- Nobody but the owner of handle `k` has anything to do with its slice `d`. -/
structure Own (c : Conf α) (k d : Nat) : Prop where
  /-- other `ArcSlice`s are of other slices, which are no parts of this one, nor the other way round -/
  slices : ∀ k' d' g m, k' ≠ k → c.get k' = some ⟨.strong d' g, m⟩ → ¬ c.Kin d' d
  /-- the same for `WeakSlice`s, except if they cannot be upgraded -/
  weaks : ∀ k' d' g m, c.get k' = some ⟨.weak (some d') g, m⟩ → ¬ c.Kin d' d ∨ c.a.b.strong d' = 0
  /-- calls in flight are on slices that were not obtained from the same array -/
  calls : ∀ (i : Nat) cl d', c.calls[i]? = some cl → cl.fin = false → cl.on = some d' → ¬ c.SameArray d' d

end Arc.Conf

namespace Arc

/-- The handle is not used. -/
def Spared (P : Rules α) (k : Nat) : Rules α := fun c op => P c op ∧ op.on ≠ some k

theorem Conf.Own.priv {k d g : Nat} {m : Bool} {b : Bool} (A : c0.IA b) (N : c0.NI) (F : c0.FI (c0.a.b.sk.lab d).fam)
    (hk : c0.get k = some ⟨.strong d g, m⟩) (O : c0.Own k d) : Priv c0 (c0.a.b.sk.lab d) d k fun _ => False := by
  have B := A.bi
  have hd : c0.a.b.sk.kind d = .data := B.ents k _ hk
  have hlt := B.heap.lt (ref_mem_aS (Conf.get_tok' hk (t := .ref d) (by simp [entT])))
  have hf := B.heap.base.famLt d hlt (by rw [hd]; simp)
  have sp : ∀ (i : Nat) cl, c0.calls[i]? = some cl → cl.fin = false → Foreign c0.a (c0.a.b.sk.lab d).fam cl := fun i cl hi hfin x hx => O.calls i cl x hi hfin hx
  have hq : ∀ (i : Nat) cl, c0.calls[i]? = some cl → ∀ t ∈ callT cl, TQ (famOff (c0.a.b.sk.lab d).fam) c0.a t := by
    intro i cl hi t ht
    rcases F.split hf with q | ⟨_, _, _, _, q, _⟩
    · cases hfin : cl.fin with
      | true =>
        obtain ⟨r, h1, h2⟩ := fin_pc hfin
        simp [callT, h1, h2, pcT] at ht
      | false => exact q i cl hi (sp i cl hi hfin) t ht
    · exact absurd rfl (q k _ hk)
  refine ⟨rfl, hlt, hd, ?_, Conf.get_lt hk, ?_, ?_⟩
  · intro q v hv hu
    obtain ⟨y, w, h1, h2, h3⟩ := B.heap.data_held hv
    have hyd := Lab.up_trans h3 hu
    rcases List.mem_append.1 h1 with h4 | h4
    · obtain ⟨o, h5, h6⟩ := List.mem_flatMap.1 h4
      cases o with
      | none => simp [slotT] at h6
      | some en =>
        obtain ⟨k', hk'⟩ := List.mem_iff_getElem?.1 h5
        have hg' : c0.get k' = some en := by simp [Conf.get, hk']
        obtain ⟨hh, m'⟩ := en
        cases hh with
        | strong d' g' =>
          simp only [slotT, entT, List.mem_cons, AT.ref.injEq, reduceCtorEq, List.not_mem_nil, or_false] at h6
          subst h6
          by_cases hkk : k' = k
          · subst hkk
            rw [hk] at hg'; cases hg'
            exact Lab.up_antisymm hu h3
          · exact absurd (.inl hyd) (O.slices k' y g' m' hkk hg')
        | weak d' g' => cases g' <;> simp [slotT, entT] at h6
        | uniq r => simp [slotT, entT] at h6
    · obtain ⟨cl, h5, h6⟩ := List.mem_flatMap.1 h4
      obtain ⟨i, hi⟩ := List.mem_iff_getElem?.1 h5
      exact absurd hyd.1 (hq i cl hi _ h6 (B.heap.base.kinds y _ h2))
  · rintro k' ⟨hh, m'⟩ hkk hg'
    cases hh with
    | strong d' g' => exact O.slices k' d' g' m' hkk hg'
    | weak d' g' =>
      intro x hx
      subst hx
      have hx0 : c0.a.b.sk.node d ≠ none := by
        obtain ⟨v, hv⟩ := B.heap.data (ref_mem_aS (Conf.get_tok' hk (t := .ref d) (by simp [entT]))) hd
        rw [hv]; simp
      have dead : c0.a.b.strong x = 0 → c0.a.b.sk.node x = none := by
        intro h0
        have := B.heap.good.ledger.live x
        cases hn : c0.a.b.sk.node x with
        | none => rfl
        | some n => rw [hn] at this; have := this.1 rfl; omega
      rcases O.weaks k' x g' m' hg' with h | h
      · exact ⟨fun e => h (e ▸ .inl (Lab.up_refl _)), .inl h⟩
      · exact ⟨fun e => hx0 (e ▸ dead h), .inr (dead h)⟩
    | uniq r => trivial
  · intro i cl _ hi
    refine ⟨fun t ht => ?_, fun hfin hb => ?_⟩
    · have := hq i cl hi t ht
      cases t with
      | ref x => exact fun hk h => h.elim (fun h => this hk h.1) (fun h => this hk h.1.symm)
      | gd g => exact fun h => this h.1.symm
      | wk g => exact fun h => this (by rw [h])
      | _ => trivial
    · have h1 := (N.bor i cl k hi hb).2 _ hk
      exact sp i cl hi hfin d h1.symm rfl

theorem start_stays {c c' : Conf α} {op : Op α} (h : SStep c op c') {k : Nat} {en : Ent} (hn : op.on ≠ some k) (hk : c.get k = some en) : c'.get k = some en := by
  have set : ∀ {j : Nat} {o : Option Ent}, j ≠ k → (c.hs.set j o)[k]?.join = some en := fun hj => by
    rw [List.getElem?_set_ne hj]; exact hk
  cases h with
  | weakNew => exact Conf.get_append hk
  | new | mutNew | clone | cloneW | cloneSide | downgrade | upgrade => exact hk
  | _ => exact set fun e => hn (by rw [← e]; rfl)

theorem Priv.spared {L : Lab} {d k : Nat} (Q : Priv c0 L d k fun _ => False) (hP : PTame P) (h : Conf.PReach P zst c0) {hh : Handle} {m : Bool}
    (hk : c0.get k = some ⟨hh, m⟩) (r : PRun (Spared P k) W c0 c1) : Priv c1 L d k (fun _ => False) ∧ ∃ m1, c1.get k = some ⟨hh, m1⟩ := by
  induction r with
  | refl => exact ⟨Q, m, hk⟩
  | step r i e ih =>
    have A := ((r.mono fun _ _ h => h.1).reach h).IA' hP
    refine ⟨ih.1.step A id e, ih.2.elim fun m1 h1 => ⟨m1, ?_⟩⟩
    cases CStep.of e with
    | none => exact h1
    | task => exact after_get_old h1
    | pc => exact after_get_old h1
  | start r op hp e ih =>
    have hr := (r.mono fun _ _ h => h.1).reach h
    exact ⟨ih.1.start (hr.IA' hP) (Conf.PReach.BI hP (.start hr op hp.1 e)) hp.2 e, ih.2.elim fun m1 h1 => ⟨m1, start_stays (.of e) hp.2 h1⟩⟩
  | write r k' en j x hk' hw hW e ih =>
    have hr := (r.mono fun _ _ h => h.1).reach h
    refine ⟨ih.1.write (hr.IA' hP) (Conf.PReach.BI hP (.write hr k' en j x hk' hw e)) e, ih.2.elim fun m1 h1 => ⟨m1, ?_⟩⟩
    rcases Conf.write_cases e with rfl | ⟨_, _, rfl⟩ <;> exact h1
  | panic r i e ih =>
    have A := ((r.mono fun _ _ h => h.1).reach h).IA' hP
    obtain ⟨cl, r, ts, ts', us, s, p⟩ := Panicked.of A.bi.heap e
    exact ⟨ih.1.panic A e, ih.2.elim fun m1 h1 => ⟨m1, by rw [p.get]; exact h1⟩⟩

theorem Grant.run {L : Lab} {d g k i : Nat} (G : Grant c2 L d g k i) (hP : PTame P) (h : Conf.PReach P zst c2) (r : PRun P W c2 c3) : Grant c3 L d g k i := by
  induction r with
  | refl => exact G
  | step r i e ih => exact ih.step ((r.reach h).IA' hP) e
  | start r op hp e ih => exact ih.start ((r.reach h).IA' hP) (Conf.PReach.BI hP (.start (r.reach h) op hp e)) e
  | write r k' en j x hk' hw hW e ih =>
    exact ih.write ((r.reach h).IA' hP) (Conf.PReach.BI hP (.write (r.reach h) k' en j x hk' hw e)) e
  | panic r i e ih => exact ih.panic ((r.reach h).IA' hP) e

end Arc

/-- The thread has handle `k` in situation `c0`, and nobody else has anything to do with its slice. Then others do what they
like (`r1`), but do not use handle `k`. In situation `c1`, the call is started; others do what they like (`r2`). If the call
has returned, it was granted. -/
theorem C65_granted (hP : PTame P) (h : Conf.PReach P zst c0) {k d g : Nat} {m : Bool} (hk : c0.get k = some ⟨.strong d g, m⟩) (own : c0.Own k d)
    (r1 : PRun (Spared P k) W c0 c1) {op : Op α} (hop : op = .getMut k ∨ op = .intoMut k) (hp : P c1 op) (hs : c1.start op = some c2) (r2 : PRun P W c2 c3)
    {cl : Call α} (hc : c3.calls[c1.calls.length]? = some cl) (hf : cl.fin = true) : cl.pc = .done .handle := by
  obtain ⟨N, F⟩ := h.families hP (c0.a.b.sk.lab d).fam
  obtain ⟨Q, m1, hk1⟩ := (own.priv (h.IA' hP) N F hk).spared hP h hk r1
  have hr1 := (r1.mono fun _ _ h => h.1).reach h
  have hr2 : Conf.PReach P zst c2 := .start hr1 op hp hs
  exact ((Grant.init Q (hr1.IA' hP) (hr2.IA' hP).bi hk1 hop hs).run hP hr2 r2).done hc hf

/-! ## Examples -/

namespace Arc

/-- The halves of an array, each with one handle: 1 and 2. Another array is being made (call 4). -/
def bothHalves : List (PAct Nat) := halves ++ [.act (.op (.drop 0)), .act (.run 3 30), .act (.op (.new [6, 7])), .act (.run 4 3)]

/-- Others work with the second half, while handle 1 is not used. -/
def meanwhile : List (PAct Nat) := [.act (.op (.cloneSide .L 2)), .act (.run 5 4), .act (.run 4 1), .act (.op (.downgrade 2)), .act (.run 6 1)]

/-- The rules: no overlaps of `upgrade` with `get_mut` and `into_mut`, and handle 1 is spared. -/
def spare1 (c : Conf Nat) (op : Op Nat) : Bool := c.strict op && decide (op.on ≠ some 1)

def before : Conf Nat := match pexec spare1 (pafter bothHalves) meanwhile with
  | some (.ok c) => c
  | _ => Conf.init false

theorem before_run : PRun (Spared (fun c op => c.strict op = true) 1) (fun _ _ => True) (pafter bothHalves) before := by
  have h : wentWell (pexec spare1 (pafter bothHalves) meanwhile) = true := by decide +kernel
  cases hx : pexec spare1 (pafter bothHalves) meanwhile with
  | none => rw [hx] at h; cases h
  | some x => cases x with
    | error u => rw [hx] at h; cases h
    | ok c2 =>
      have e : before = c2 := by simp only [before, hx]
      rw [e]
      exact (pexec_run hx).mono fun c op h => by simpa [spare1, Spared] using h

def askMut : Conf Nat := (before.start (.getMut 1)).getD (Conf.init false)

def askInto : Conf Nat := (before.start (.intoMut 1)).getD (Conf.init false)

/-- Others go on, and drop the second half. -/
def workOn : List (PAct Nat) :=
  [.act (.run 7 2), .act (.run 5 30), .act (.run 6 30), .act (.run 7 1), .act (.op (.drop 2)), .act (.run 8 2), .act (.run 7 30), .act (.run 8 30)]

/-- A thread tries to get an `ArcSlice` of the second half from a `WeakSlice` (call 5) and holds the whole for a moment. The
handle to the whole is dropped. -/
def holding : List (PAct Nat) :=
  halves ++ [.act (.op (.downgrade 2)), .act (.run 3 30), .act (.op (.drop 2)), .act (.run 4 30), .act (.op (.upgrade 3)), .act (.run 5 4),
    .act (.op (.drop 0)), .act (.run 6 30)]

def askHeld : Conf Nat := ((pafter holding).start (.getMut 1)).getD (Conf.init false)

theorem own_halves : (pafter bothHalves).Own 1 2 where
  slices k' d' g m hne hk := by
    have hl := Conf.get_lt hk
    rw [show (pafter bothHalves).hs.length = 3 by decide +kernel] at hl
    match k', hl with
    | 0, _ => exact absurd hk (by rw [show (pafter bothHalves).get 0 = none by decide +kernel]; simp)
    | 1, _ => exact absurd rfl hne
    | 2, _ =>
      rw [show (pafter bothHalves).get 2 = some ⟨.strong 3 2, false⟩ by decide +kernel] at hk
      cases hk
      unfold Conf.Kin
      rw [show (pafter bothHalves).a.b.sk.lab 2 = ⟨0, [.L]⟩ by decide +kernel, show (pafter bothHalves).a.b.sk.lab 3 = ⟨0, [.R]⟩ by decide +kernel]
      simp only [Lab.up]
      decide
  weaks k' d' g m hk := by
    have hl := Conf.get_lt hk
    rw [show (pafter bothHalves).hs.length = 3 by decide +kernel] at hl
    match k', hl with
    | 0, _ => exact absurd hk (by rw [show (pafter bothHalves).get 0 = none by decide +kernel]; simp)
    | 1, _ => exact absurd hk (by rw [show (pafter bothHalves).get 1 = some ⟨.strong 2 1, false⟩ by decide +kernel]; simp)
    | 2, _ => exact absurd hk (by rw [show (pafter bothHalves).get 2 = some ⟨.strong 3 2, false⟩ by decide +kernel]; simp)
  calls i cl d' hi hf ho := by
    have h : (pafter bothHalves).calls.all (fun cl => cl.fin || cl.on.isNone) = true := by decide +kernel
    have := List.all_eq_true.1 h cl (List.mem_of_getElem? hi)
    simp [hf, ho] at this

end Arc

/-- The hypotheses are met: two calls of others on the second half are in flight when `get_mut` (or `into_mut`) on the first half is called. -/
example : Conf.PReach (fun c op => c.strict op = true) false (pafter bothHalves) ∧ (pafter bothHalves).get 1 = some ⟨.strong 2 1, false⟩ ∧
    (pafter bothHalves).Own 1 2 ∧ PRun (Spared (fun c op => c.strict op = true) 1) (fun _ _ => True) (pafter bothHalves) before ∧
    before.strict (.getMut 1) = true ∧ before.strict (.intoMut 1) = true :=
  ⟨(run_of (as := bothHalves) (by decide +kernel) rfl).reach .init, by decide +kernel, own_halves, before_run, by decide +kernel, by decide +kernel⟩

example : (before.calls.map fun cl => cl.fin) = [true, true, true, true, false, false, false] ∧ before.start (.getMut 1) = some askMut ∧
    before.start (.intoMut 1) = some askInto ∧ PRun (fun c op => c.strict op = true) (fun _ _ => True) askMut (pfrom askMut workOn) ∧
    PRun (fun c op => c.strict op = true) (fun _ _ => True) askInto (pfrom askInto workOn) :=
  ⟨by decide +kernel, rfl, rfl, run_of (by decide +kernel) rfl, run_of (by decide +kernel) rfl⟩

/-- Both are granted. -/
example : ((pfrom askMut workOn).calls[before.calls.length]?.map fun cl => (cl.fin, cl.out.map (pfrom askMut workOn).get)) =
      some (true, [some ⟨.strong 2 1, true⟩]) ∧
    ((pfrom askInto workOn).calls[before.calls.length]?.map fun cl => (cl.fin, cl.out.length)) = some (true, 1) :=
  ⟨by decide +kernel, by decide +kernel⟩

/-- It does not suffice that calls in flight are on other slices of the same array: while call 5 is looking for the second half, the call of
`get_mut` on the first half is refused, although nobody has any other handle to the first half or the whole. -/
example : ((pafter holding).calls.map fun cl => (cl.fin, cl.on)) =
      [(true, none), (true, some 1), (true, some 1), (true, some 3), (true, some 3), (false, some 3), (true, some 1)] ∧
    (pafter holding).hs = [none, some ⟨.strong 2 1, false⟩, none, some ⟨.weak (some 3) (some 2), false⟩] ∧
    (pafter holding).a.b.sk.lab 2 = ⟨0, [.L]⟩ ∧ (pafter holding).a.b.sk.lab 3 = ⟨0, [.R]⟩ ∧
    ((pfrom askHeld [.act (.run 7 30)]).calls[7]?.map fun cl => (cl.fin, cl.out.map (pfrom askHeld [.act (.run 7 30)]).get)) =
      some (true, [some ⟨.strong 2 1, false⟩]) :=
  ⟨by decide +kernel, by decide +kernel, by decide +kernel, by decide +kernel, by decide +kernel⟩

end Verif
