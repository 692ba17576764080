import Verif.Arc.Proofs.Contract2
/-!
# C55: what the calls return does not depend on other threads

Every call returns what `Returns` (`Arc/Contract.lean`) specifies in terms of the situation in which it was made, whatever
other threads do in the meantime: for every number of threads and every schedule, even if destructors panic, in
programs where no call of `WeakSlice::upgrade` overlaps a call of `into_mut` on a larger slice (`PTame`).
-/

namespace Verif
open Arc
open Spec (Side Slot Rng End)
variable {α : Type} {P : Rules α} {zst : Bool} {c c1 c2 c' : Conf α} {W : Nat → Nat → Prop}

namespace Arc

theorem seen_good (B : c.BI) {k : Nat} {e : Ent} {v : Seen} (hk : c.get k = some e) (h : Good c.a e.h v) : c.seen e = some v := by
  obtain ⟨o, h1, _⟩ := B.shows hk
  obtain ⟨hh, m⟩ := e
  cases hh with
  | strong d g =>
    obtain ⟨w, e1, _⟩ := Arc.bind_ok h1
    cases v <;> first | exact False.elim h | skip
    obtain ⟨rfl, rfl, rfl⟩ := h.is w (getData_some e1)
    simp only [Conf.seen, e1]
  | weak d g => cases v <;> first | exact False.elim h | (cases h; rfl)
  | uniq r => cases v <;> first | exact False.elim h | (obtain ⟨rfl, rfl, rfl⟩ := h; rfl)

theorem strong_at (B : c.BI) {k d g : Nat} {m : Bool} (hk : c.get k = some ⟨.strong d g, m⟩) :
    ∃ b o l, At c.a d b o l ∧ c.Sees k (.shared b o l) := by
  obtain ⟨v, hv⟩ := B.heap.data (ref_mem_aS (Conf.get_tok' hk (t := .ref d) (by simp [entT]))) (B.ents k _ hk)
  exact ⟨_, _, _, At.of B.heap.base hv, _, hk, by simp [Conf.seen, Rc.Heap.getData, hv]⟩

theorem returns_mono (op : Op α) : Mono W (fun s => Returns c W s op) := by
  intro s s' r vs e h
  cases op with
  | new xs => obtain ⟨h1, b, h2, h3, h4⟩ := h; exact ⟨h1, b, h2, h3, e.filled h4⟩
  | mutNew xs => obtain ⟨h1, b, h2, h3, h4⟩ := h; exact ⟨h1, b, h2, h3, e.filled h4⟩
  | next en k => cases en <;> exact h
  | cut en n k => cases en <;> exact h
  | _ => exact h

theorem returns_start (B : c.BI) {op : Op α} (hs : c.start op = some c1) (hn : c.calls.length < c1.calls.length) :
    Will W (fun s => Returns c W s op) c.hs.length c.calls.length op c1 := by
  have sh : ∀ {k : Nat} {pc : Pc α}, (c.shared op k pc).calls[c.calls.length]? = some { op, pc, borrow := some k, on := c.node k } := by
    intro k pc; simp [Conf.shared]
  have tk : ∀ {k : Nat} {pc : Pc α} {ts : List ATask}, (c.taking op k pc ts).calls[c.calls.length]? = some { op, pc, tasks := ts, on := c.node k } := by
    intro k pc ts; simp [Conf.taking]
  have pl : ∀ {pc : Pc α}, (c.plain op pc).calls[c.calls.length]? = some { op, pc } := by intro pc; simp [Conf.plain]
  have live : ∀ {k : Nat} {r : Rc.Reg} {m : Bool}, c.get k = some ⟨.uniq r, m⟩ → ∀ i, r.off ≤ i → i < r.off + r.len → ∃ x, c.a.b.slot r.buf i = .live x := by
    intro k r m hk i h1 h2
    obtain ⟨o, e1, e2⟩ := B.shows hk
    cases e1
    exact (e2 _ _ _ rfl).2 i h1 h2
  refine ⟨start_len (.of hs), ?_⟩
  cases SStep.of hs with
  | new xs => exact ⟨_, pl, rfl, .inl ⟨rfl, rfl, fun s b h1 h2 => ⟨rfl, b, rfl, h1, h2⟩⟩⟩
  | mutNew xs => exact ⟨_, pl, rfl, .inl ⟨rfl, rfl, fun s b h1 h2 => ⟨rfl, b, rfl, h1, h2⟩⟩⟩
  | weakNew => exact absurd hn (Nat.lt_irrefl _)
  | endMut => exact absurd hn (Nat.lt_irrefl _)
  | clone k d g hk =>
    obtain ⟨b, o, l, h1, h2⟩ := strong_at B hk
    exact ⟨_, sh, rfl, .inl ⟨rfl, rfl, b, o, l, h1, rfl, _, h2, rfl⟩⟩
  | cloneW k d g m hk => exact ⟨_, sh, rfl, .inl ⟨rfl, rfl, rfl, _, ⟨_, hk, rfl⟩, rfl⟩⟩
  | cloneSide s k d g hk =>
    obtain ⟨b, o, l, h1, h2⟩ := strong_at B hk
    exact ⟨_, sh, rfl, .inl ⟨rfl, rfl, b, o, l, h1, rfl, _, _, _, h2, rfl⟩⟩
  | getMut k d g hk hb =>
    obtain ⟨b, o, l, h1, h2⟩ := strong_at B hk
    exact ⟨_, tk, rfl, .inl ⟨rfl, rfl, b, o, l, h1, ⟨.inl rfl, _, _, _, h2, rfl⟩, ⟨.inr rfl, _, _, _, h2, rfl⟩⟩⟩
  | intoMut k d g hk hb =>
    obtain ⟨b, o, l, h1, h2⟩ := strong_at B hk
    exact ⟨_, tk, rfl, .inl ⟨rfl, rfl, b, o, l, h1, ⟨_, _, _, h2, .inl ⟨rfl, rfl⟩⟩, ⟨_, _, _, h2, .inr ⟨rfl, rfl⟩⟩⟩⟩
  | intoImmut k r m hk hb => exact ⟨_, tk, rfl, .inl ⟨rfl, rfl, rfl, _, _, _, ⟨_, hk, rfl⟩, rfl⟩⟩
  | splitOff s k r m hk hb => exact ⟨_, tk, rfl, .inl ⟨rfl, rfl, rfl, _, _, _, ⟨_, hk, rfl⟩, rfl⟩⟩
  | next en k r m hk hb =>
    refine ⟨_, tk, rfl, .inl ⟨rfl, rfl, ?_⟩⟩
    cases en <;> refine ⟨fun h0 => ⟨_, _, _, ⟨_, hk, rfl⟩, .inl ⟨h0, rfl, rfl⟩⟩, fun h0 => ?_⟩
    · obtain ⟨x, hx⟩ := live hk r.off (by omega) (by omega)
      refine ⟨x, .inr (.inl hx), fun y s hy => ⟨_, _, _, ⟨_, hk, rfl⟩, .inr ⟨h0, y, rfl, ?_, rfl⟩⟩⟩
      exact hy.imp id fun h => by rw [h]; exact hx
    · obtain ⟨x, hx⟩ := live hk (r.off + r.len - 1) (by omega) (by omega)
      refine ⟨x, .inr (.inl hx), fun y s hy => ⟨_, _, _, ⟨_, hk, rfl⟩, .inr ⟨h0, y, rfl, ?_, rfl⟩⟩⟩
      exact hy.imp id fun h => by rw [h]; exact hx
  | cut en n k r m hk hb =>
    refine ⟨_, tk, rfl, .inl ⟨rfl, rfl, ?_⟩⟩
    cases en <;> exact ⟨fun h0 => ⟨_, _, _, ⟨_, hk, rfl⟩, .inl ⟨h0, rfl, rfl⟩⟩, fun h0 => ⟨_, _, _, ⟨_, hk, rfl⟩, .inr ⟨h0, rfl, rfl⟩⟩⟩
  | downgrade k d g hk => exact ⟨_, sh, rfl, .inl ⟨rfl, rfl, rfl, _, _, _, hk, rfl⟩⟩
  | upgrade k d g m hk =>
    refine ⟨_, sh, rfl, .inl ⟨rfl, rfl, ⟨_, ⟨_, hk, rfl⟩, .inl ⟨.inl rfl, rfl⟩⟩, fun x hx => ?_⟩⟩
    obtain ⟨h1, h2⟩ := B.ents k _ hk x hx
    refine ⟨h1, h2, fun v hv => ⟨_, ⟨_, hk, rfl⟩, .inr ⟨rfl, x, hx, _, fun g m => ?_, rfl⟩⟩⟩
    have hv : c.a.b.sk.node x = some (.data v) := hv
    simp [Conf.seen, Rc.Heap.getData, hv]
  | dropS k d g hk hb =>
    obtain ⟨b, o, l, h1, h2⟩ := strong_at B hk
    exact ⟨_, tk, rfl, .inr ⟨.unit, [], c.hs.length, rfl, ⟨.inl rfl, ⟨_, h2⟩, rfl⟩, Nat.le_refl _, rfl, ⟨by simp [Conf.taking], fun i v h => by simp at h⟩, fun _ => .inl rfl⟩⟩
  | dropW k d g m hk hb => exact ⟨_, tk, rfl, .inl ⟨rfl, rfl, .inl rfl, ⟨_, _, hk, rfl⟩, rfl⟩⟩
  | dropU k r m hk hb =>
    exact ⟨_, tk, rfl, .inr ⟨.unit, [], c.hs.length, rfl, ⟨.inl rfl, ⟨_, _, hk, rfl⟩, rfl⟩, Nat.le_refl _, rfl, ⟨by simp [Conf.taking], fun i v h => by simp at h⟩, fun _ => .inl rfl⟩⟩

end Arc

/-- C55: a call is made in situation `c`; it is call number `c.calls.length` from then on. Whatever happens afterwards, once
it has returned its result is one of those specified for situation `c`; it has returned new handles `m, m + 1, …`, and of
those that are still there can be seen what is specified. -/
theorem C55_returns (hP : PTame P) (h : Conf.PReach P zst c) {op : Op α} (hp : P c op) (hs : c.start op = some c1)
    (hn : c.calls.length < c1.calls.length) (run : PRun P W c1 c2) :
    ∃ cl, c2.calls[c.calls.length]? = some cl ∧ cl.op = op ∧ (cl.fin = true → ∃ r vs m, cl.pc = .done r ∧ Returns c W c2.a.b.slot op r vs ∧
      cl.out = List.range' m vs.length ∧ c.hs.length ≤ m ∧ m + vs.length ≤ c2.hs.length ∧
      ∀ i v, vs[i]? = some v → ∀ e, c2.get (m + i) = some e → c2.seen e = some v) := by
  have hr : Conf.PReach P zst c1 := h.start op hp hs
  have B2 := (run.reach hr).BI hP
  have hd : op.drops = true → ∀ s, Returns c W s op .panic [] := by
    intro hd s
    cases SStep.of hs with
    | upgrade k d g m hk => exact ⟨d, ⟨_, hk, rfl⟩, .inl ⟨.inr rfl, rfl⟩⟩
    | dropS k d g hk hb =>
      obtain ⟨b, o, l, h1, h2⟩ := strong_at (h.BI hP) hk
      exact ⟨.inr rfl, ⟨_, h2⟩, rfl⟩
    | dropW k d g m hk hb => exact ⟨.inr rfl, ⟨_, _, hk, rfl⟩, rfl⟩
    | dropU k r m hk hb => exact ⟨.inr rfl, ⟨_, _, hk, rfl⟩, rfl⟩
    | _ => cases hd
  obtain ⟨h0, cl, h1, h2, h3⟩ := (returns_start (W := W) (h.BI hP) hs hn).run (returns_mono op) hd hP hr run
  refine ⟨cl, h1, h2, fun hf => ?_⟩
  rcases h3 with ⟨h3, _⟩ | ⟨r, vs, m, h3, h4, h5, h6, h7, h8⟩
  · simp only [Call.fin, h3, Bool.and_false] at hf; cases hf
  · exact ⟨r, vs, m, h3, h4, h6, h5, h7.1, fun i v hv e he => seen_good B2 he (h7.2 i v hv e he)⟩

/-- C55: when a call returns a handle, the handle is there. -/
theorem C55_delivered {i : Nat} {cl cl' : Call α} (e : c.step i = .ok c') (h : c.calls[i]? = some cl) (h' : c'.calls[i]? = some cl') {m : Nat}
    (hm : m ∈ cl'.out) : m ∈ cl.out ∨ ∃ en, c'.get m = some en := by
  have hlen := (List.getElem?_eq_some_iff.1 h).1
  have key : ∀ {a' : Arena α} {cl2 : Call α} {new : List Ent}, (c.after i a' cl2 new).calls[i]? = some cl' → cl2.out = cl.out →
      m ∈ cl.out ∨ ∃ en, (c.after i a' cl2 new).get m = some en := by
    intro a' cl2 new h1 h2
    have h3 : (c.calls.set i _)[i]? = some cl' := h1
    rw [List.getElem?_set_self hlen] at h3
    cases h3
    rcases List.mem_append.1 hm with hm | hm
    · exact .inl (by rw [← h2]; exact hm)
    · refine .inr ?_
      obtain ⟨h4, h5⟩ := List.mem_range'_1.1 hm
      have h6 : m - c.hs.length < new.length := by omega
      refine ⟨new[m - c.hs.length], ?_⟩
      simp only [Conf.get, Conf.after]
      rw [List.getElem?_append_right h4, List.getElem?_map, List.getElem?_eq_getElem h6]
      rfl
  cases CStep.of e with
  | none h1 => rw [h] at h1; cases h1
  | task cl2 t ts a' new hi ht e2 => rw [h] at hi; cases hi; exact key h' rfl
  | pc cl2 a' n hi ht e2 => rw [h] at hi; cases hi; exact key h' rfl

/-- C55: a handle stays there until a call is made that takes it, and as long as it is there the same can be seen of it. -/
theorem C55_stays (hP : PTame P) (h : Conf.PReach P zst c) (hs : Conf.PStep c (.ok c')) {k : Nat} {v : Seen} (hk : c.Sees k v) :
    c'.Sees k v ∨ ∃ op, op.takes = some k ∧ c.start op = some c' := by
  have B := h.BI hP
  obtain ⟨e, h1, h2⟩ := hk
  have good : Good c.a e.h v := by
    obtain ⟨hh, m⟩ := e
    cases hh with
    | strong d g =>
      simp only [Conf.seen] at h2
      split at h2
      · next w hw => cases h2; exact At.of B.heap.base (getData_some hw)
      · cases h2
    | weak d g => cases h2; rfl
    | uniq r => cases h2; exact ⟨rfl, rfl, rfl⟩
  have fin : ∀ {e'}, c'.BI → AEvo c.a c'.a → c'.get k = some e' → e'.h = e.h → c'.Sees k v := fun B' ev hg he =>
    ⟨_, hg, seen_good B' hg (by rw [he]; exact good.mono B.heap.base ev)⟩
  generalize hr : (Except.ok c' : Except Rc.UB (Conf α)) = r at hs
  cases hs with
  | step r hs =>
    cases hs with
    | run i =>
      have hr := hr.symm
      have B' := (h.run i hr).BI hP
      refine .inl (fin B' (Evol.step (W := fun _ _ => False) hP h hr).evo (e' := e) ?_ rfl)
      cases CStep.of hr with
      | none _ => exact h1
      | task => exact after_get_old h1
      | pc => exact after_get_old h1
    | start c2 op hst =>
      cases hr
      by_cases ht : op.takes = some k
      · exact .inr ⟨op, ht, hst⟩
      · have B' := B.start hst
        refine .inl ?_
        have : ∃ e', c'.get k = some e' ∧ e'.h = e.h := by
          have hlk := c.get_lt h1
          have set : ∀ {n : Nat}, n ≠ k → ∀ (o : Option Ent), (c.hs.set n o)[k]?.join = some e := by
            intro n hn o; rw [List.getElem?_set_ne hn]; exact h1
          cases SStep.of hst with
          | weakNew => exact ⟨e, Conf.get_append (new := [some ⟨.weak none none, false⟩]) h1, rfl⟩
          | endMut n d g hn =>
            by_cases hkn : n = k
            · subst hkn
              rw [hn] at h1; cases h1
              exact ⟨⟨.strong d g, false⟩, by simp [Conf.get, hlk], rfl⟩
            · exact ⟨e, set hkn _, rfl⟩
          | getMut n | intoMut n | intoImmut n | dropS n | dropW n | dropU n | splitOff _ n | next _ n | cut _ _ n =>
            exact ⟨e, set (fun hh => ht (by simp [Op.takes, hh])) _, rfl⟩
          | _ => exact ⟨e, h1, rfl⟩
        obtain ⟨e', h3, h4⟩ := this
        exact fin B' (Evol.start (W := fun _ _ => False) B.heap.base hst).evo h3 h4
    | write n en i x hk hw =>
      have hr := hr.symm
      have B' := (h.write n en i x hk hw hr).BI hP
      have ev := Evol.write (W := fun _ _ => True) B.heap.base (fun _ _ _ _ _ => trivial) hr
      refine .inl (fin B' ev.evo (e' := e) ?_ rfl)
      rcases Conf.write_cases hr with rfl | ⟨b, i, rfl⟩ <;> exact h1
  | panic c2 i hst =>
    cases hr
    have B' := (h.panic i hst).BI hP
    obtain ⟨cl, r, ts, ts', us, s, p⟩ := Panicked.of B.heap hst
    exact .inl (fin B' (Evol.panic (W := fun _ _ => False) hP h hst).evo (e' := e) (by rw [p.get]; exact h1) rfl)

/-! ## Programs that meet the hypotheses -/

namespace Arc

theorem pexec_run {p : Conf α → Op α → Bool} : ∀ {as : List (PAct α)} {c c' : Conf α},
    pexec p c as = some (.ok c') → PRun (fun c op => p c op = true) (fun _ _ => True) c c' := by
  have run : ∀ {n i : Nat} {c c' : Conf α}, steps c i n = .ok c' → PRun (fun c op => p c op = true) (fun _ _ => True) c c' := by
    intro n i
    induction n with
    | zero => intro c c' e; cases e; exact .refl
    | succ n ih =>
      intro c c' e
      obtain ⟨c1, e1, e2⟩ := Arc.bind_ok e
      exact PRun.trans (.step .refl i e1) (ih e2)
  intro as
  induction as with
  | nil => intro c c' e; cases e; exact .refl
  | cons a as ih =>
    intro c c' e
    cases a with
    | panic i =>
      simp only [pexec] at e
      split at e
      · next c1 hc => exact PRun.trans (.panic .refl i hc) (ih e)
      · cases e
    | act a =>
      simp only [pexec] at e
      split at e
      · next c1 hc =>
        refine PRun.trans ?_ (ih e)
        cases a with
        | op o =>
          simp only [execIf] at hc
          split at hc
          · next hp =>
            cases hs : c.start o with
            | none => rw [hs] at hc; cases hc
            | some c2 => rw [hs] at hc; cases hc; exact .start .refl o hp hs
          · cases hc
        | run i n =>
          simp only [execIf] at hc
          cases hs : steps c i n with
          | error u => rw [hs] at hc; cases hc
          | ok c2 => rw [hs] at hc; cases hc; exact run hs
        | wr k j x =>
          simp only [execIf] at hc
          cases hk : c.get k with
          | none => rw [hk] at hc; cases hc
          | some en =>
            rw [hk] at hc; simp only at hc
            split at hc
            · rename_i hw
              cases hs : c.write en j x with
              | error u => rw [hs] at hc; cases hc
              | ok c2 => rw [hs] at hc; cases hc; exact .write .refl k en j x hk hw (fun _ _ _ _ _ => trivial) hs
            · cases hc
      · next hh => exact absurd e (hh c')

/-- Two handles to the same slice of five items. -/
def twoHandles : List (PAct Nat) :=
  [.act (.op (.new [1, 2, 3, 4, 5])), .act (.run 0 8), .act (.op (.clone 0)), .act (.run 1 8)]

/-- One thread calls `clone_left` (call 2); another one calls it, too, is faster, and goes on to drop its handles. -/
def leftRace : List (PAct Nat) :=
  [.act (.run 2 3), .act (.op (.cloneSide .L 1)), .act (.run 3 30), .act (.run 2 2), .act (.op (.drop 2)), .act (.run 2 1),
    .act (.run 4 30), .act (.op (.drop 1)), .act (.run 5 30), .act (.run 2 30)]

def asked : Conf Nat := (Conf.start (pafter twoHandles) (.cloneSide .L 0)).getD (Conf.init false)

def answered : Conf Nat := match pexec (fun c op => c.strict op) asked leftRace with
  | some (.ok c) => c
  | _ => Conf.init false

def wentWell : Option (Except Rc.UB (Conf Nat)) → Bool
  | some (.ok _) => true
  | _ => false

end Arc

example : Conf.PReach (fun c op => c.strict op = true) false (pafter twoHandles) ∧ (pafter twoHandles).start (.cloneSide .L 0) = some asked ∧
    (pafter twoHandles).strict (.cloneSide .L 0) = true ∧ (pafter twoHandles).calls.length < asked.calls.length :=
  ⟨pexec_reach (as := twoHandles) .init rfl, rfl, rfl, by decide⟩

example : PRun (fun c op => c.strict op = true) (fun _ _ => True) asked answered := by
  have h : wentWell (pexec (fun c op => c.strict op) asked leftRace) = true := by decide +kernel
  unfold answered
  split
  · next e => exact pexec_run e
  · next hne =>
    exfalso
    revert h
    cases e : pexec (fun c op => c.strict op) asked leftRace with
    | none => exact fun h => nomatch h
    | some x => cases x with
      | error u => exact fun h => nomatch h
      | ok c => exact absurd e (hne c)

/-- The call has returned handle 3: the first two items of the five. -/
example : (answered.calls[2]?.map fun cl => (cl.fin, cl.out)) = some (true, [3]) ∧ (answered.get 3).bind answered.seen = some (.shared 0 0 2) ∧
    (pafter twoHandles).Sees 0 (.shared 0 0 5) := ⟨by decide +kernel, by decide +kernel, _, rfl, by decide⟩

/-- C55_stays: handle 0 stays, handle 1 is taken. -/
example : (answered.get 0).bind answered.seen = some (.shared 0 0 5) ∧ (answered.get 1).isNone = true := ⟨by decide +kernel, by decide +kernel⟩

end Verif
