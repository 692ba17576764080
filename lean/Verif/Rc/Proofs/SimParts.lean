import Verif.Rc.Proofs.SimOps3
/-!
# Iterators over the parts of a unique slice
-/

namespace Verif.Rc
open Verif.Spec (Side Slot Family Rng Hand World Op Obs End)
variable {α : Type}

section
variable {umax : Nat} {s : State α} {w : World α} {T : List Tok}

theorem set_same {β : Type} {hs : List (Option β)} {k : Nat} {y : β} (h : hs[k]?.join = some y) : hs.set k (some y) = hs := by
  cases h1 : hs[k]? with
  | none => rw [h1] at h; cases h
  | some o =>
    rw [h1] at h; simp only [Option.join_some] at h; subst h
    obtain ⟨h2, h3⟩ := List.getElem?_eq_some_iff.1 h1
    rw [← h3]; exact List.set_getElem_self h2

theorem enc_pos (cnt : Nat) (r : Rng) : enc (posCtx umax cnt) r = ⟨r.off, r.len⟩ := by simp [enc, posCtx]

theorem sim_intoParts (R : Rel umax s w T) (k n : Nat) : Sim umax s w T (.intoParts k n) := by
  rcases R.at_ k with ⟨e1, e2⟩ | ⟨x, y, e1, e2, hr⟩
  · exact .inv R (by simp only [exec, e1]) (by simp only [World.act, e2])
  · cases hr with
    | uniq r hin =>
      by_cases hn : n ≤ umax
      · have I0 : Inv s.h (.reg r :: (tabToks umax (s.hs.set k none) ++ T)) := R.split e1
        rcases SliceItemsParts.new_cases ⟨r.off, r.len⟩ n with ⟨⟨m, rfl⟩, _⟩ | ⟨hno, he⟩
        · have hnew := SliceItemsParts.new_pow (posCtx umax umax) m ⟨r.off, r.len⟩
          rw [enc_pos] at hnew
          simp only at hnew
          refine .of0 (s' := s.put k (.parts r.buf r.alloc (.pstate (posCtx umax umax) m 0 0 ⟨r.off, r.len⟩))) (o := .done)
            (w' := w.put k (.parts r.buf (rparts m ⟨r.off, r.len⟩) r.alloc.isSome)) ?_ ?_ ?_
          · simp only [exec, e1, hnew]; rw [if_pos hn]
          · simp only [World.act, e2, Nat.log2_two_pow, if_true, rparts]; rw [if_pos hn]
          · refine R.put e1 ?_ (.refl _) R.core rfl ?_
            · have hle := (R.core.rng_le hin).2
              have hp := Nat.two_pow_pos m
              rw [tok_parts hle (by omega)]
              have : restRng m 0 0 ⟨r.off, r.len⟩ = ⟨r.off, r.len⟩ := by
                simp only [restRng]
                rw [if_neg (by omega), cut_zero, Nat.sub_zero, cut_full]
                simp
              rw [this]; exact I0
            · have := HandRel.parts (umax := umax) (k := s.h.sk) r.buf r.alloc m 0 0 ⟨r.off, r.len⟩ (Nat.zero_le _) hn hin
              rwa [win_zero] at this
        · refine .of (s' := s.del k) (o := .panicked) (ts := [.dropReg r]) (w' := w.del k) ?_ ?_
            (R.del (I0.perm (perm_mid ..)) (.refl _) R.core rfl)
          · simp only [exec, e1, he]; rw [if_pos hn]
          · simp only [World.act, e2]; rw [if_pos hn, if_neg fun h => hno ⟨_, h⟩]
      · exact .inv R (by simp only [exec, e1]; rw [if_neg hn]) (by simp only [World.act, e2]; rw [if_neg hn])
    | _ => exact .inv R (by simp only [exec, e1]) (by simp only [World.act, e2])

/-- Taking one part. -/
theorem part_step (R : Rel umax s w T) {e : End} {k b : Nat} {a : Option Nat} {m f c f' c' : Nat} {r p : Rng}
    (e1 : s.get k = some (.parts b a (.pstate (posCtx umax umax) m f c r)))
    (e2 : w.get k = some (.parts b (win (rparts m r) f c) a.isSome))
    (h1 : f + c ≤ 2 ^ m) (h2 : 2 ^ m ≤ umax) (h3 : RngIn s.h.sk b r) (h4 : f' + c' ≤ 2 ^ m)
    (hcode : (match e with
      | .front => SliceItemsParts.next (posCtx umax (s.h.sk.blen b)) (.pstate (posCtx umax umax) m f c r)
      | .back => SliceItemsParts.nextBack (posCtx umax (s.h.sk.blen b)) (.pstate (posCtx umax umax) m f c r)) =
      .ok (some ⟨p.off, p.len⟩, .pstate (posCtx umax umax) m f' c' r))
    (hspec : Spec.deqStep e (win (rparts m r) f c) = (some p, win (rparts m r) f' c'))
    (hp : p.off + p.len ≤ r.off + r.len) (hl1 : p.len ≤ (restRng m f c r).len)
    (hl2 : (restRng m f' c' r).len ≤ (restRng m f c r).len)
    (hsp : ∀ x j, Span.num x j ⟨b, p.off, p.len⟩ + Span.num x j ⟨b, (restRng m f' c' r).off, (restRng m f' c' r).len⟩ =
      Span.num x j ⟨b, (restRng m f c r).off, (restRng m f c r).len⟩) :
    Sim umax s w T (.nextPart e k) := by
  have hle := R.core.rng_le h3
  have I0 := R.split e1
  rw [tok_parts hle.2 h1] at I0
  obtain ⟨h', a1, a2, es0, I', ek, es, hh⟩ := splitAlloc_ok I0 (r1 := ⟨b, p.off, p.len, none⟩)
    (r2 := ⟨b, (restRng m f' c' r).off, (restRng m f' c' r).len, none⟩) rfl rfl hsp hl1 hl2
  have htot : World.total (win (rparts m r) f' c') = (restRng m f' c' r).len := by
    rw [← win_view h4]
  refine .of0 (s' := ({ s with h := h' }.put k (.parts b a2 (.pstate (posCtx umax umax) m f' c' r))).push
      (.uniq ⟨b, p.off, p.len, a1⟩)) (o := .handle)
    (w' := (w.put k (.parts b (win (rparts m r) f' c') a2.isSome)).push (.uniq b p a1.isSome)) ?_ ?_ ?_
  · have : partsNext umax s.h b a (.pstate (posCtx umax umax) m f c r) e =
        .ok (h', some ⟨b, p.off, p.len, a1⟩, a2, .pstate (posCtx umax umax) m f' c' r) := by
      simp only at es0
      simp only [restRng] at es0
      simp only [partsNext]
      cases e <;>
        (simp only at hcode
         simp only [hcode, noFault, bind, Except.bind]
         rw [asSlice_pos (R.core.blen b) hle.1 h4]
         simp only
         rw [es0]; rfl)
    simp only [exec, e1, this]; rfl
  · simp only [World.act, e2]
    rw [hspec]
    simp only [htot]
    simp only at hh
    rw [← hh]
  · refine R.putPush e1 (x := .parts b a2 (.pstate (posCtx umax umax) m f' c' r)) (x' := .uniq ⟨b, p.off, p.len, a1⟩) ?_
      (ek ▸ .refl _) (R.core.same (.of_eq ek es)) rfl (.parts b a2 m f' c' r h4 h2 (by rw [ek]; exact h3))
      (.uniq ⟨b, p.off, p.len, a1⟩ (by rw [ek]; exact h3.sub hp))
    rw [tok_parts hle.2 h4]; exact I'

theorem sim_nextPart (R : Rel umax s w T) (e : End) (k : Nat) : Sim umax s w T (.nextPart e k) := by
  rcases R.at_ k with ⟨e1, e2⟩ | ⟨x, y, e1, e2, hr⟩
  · exact .inv R (by simp only [exec, e1]) (by simp only [World.act, e2])
  · cases hr with
    | parts b a m f c r h1 h2 h3 =>
      have hle := R.core.rng_le h3
      have est : SliceItemsParts.pstate (posCtx umax umax) m f c r = SliceItemsParts.pstate (posCtx umax (s.h.sk.blen b)) m f c r := rfl
      by_cases hd : f + c = 2 ^ m
      · have hdone := SliceItemsParts.next_pstate_done (posCtx umax (s.h.sk.blen b)) m f c r hd
        have hw : win (rparts m r) f c = [] := win_done _ (by rw [parts_length]; omega)
        have : partsNext umax s.h b a (.pstate (posCtx umax umax) m f c r) e =
            .ok (s.h, none, a, .pstate (posCtx umax umax) m f c r) := by
          simp only [partsNext]
          cases e with
          | front => simp only; rw [est, hdone.1]; rfl
          | back => simp only; rw [est, hdone.2]; rfl
        refine .of0 (s' := s) (o := .none) (w' := w) ?_ ?_ R
        · simp only [exec, e1, this]
          show Except.ok (({ s with h := s.h } : State α).put k _, _, _) = _
          simp only [State.put]
          rw [set_same e1]
        · simp only [World.act, e2, hw]
          cases e <;> rfl
      · have hlt : f + c < 2 ^ m := by omega
        have hin : InBuf (posCtx umax (s.h.sk.blen b)) r := hle.1
        have hm1 := cut_mono m r (f := f) (g := f + 1) (by omega)
        have hm2 := cut_mono m r (f := f + 1) (g := 2 ^ m - c) (by omega)
        have hm3 := cut_mono m r (f := f) (g := 2 ^ m - 1 - c) (by omega)
        have hm4 := cut_mono m r (f := 2 ^ m - 1 - c) (g := 2 ^ m - c) (by omega)
        have hb := cut_bounds m (f + 1) r
        have hb2 := cut_bounds m (2 ^ m - c) r
        cases e with
        | front =>
          have hget := rparts_get m f r (by omega)
          refine part_step R (p := ⟨cut m f r, cut m (f + 1) r - cut m f r⟩) (f' := f + 1) (c' := c) e1 e2 h1 h2 h3 (by omega) ?_ ?_ ?_
            ?_ ?_ ?_
          · simp only
            rw [est, SliceItemsParts.next_pstate _ _ _ _ _ hin h2 hlt, hget]
            simp only [Option.map_some, enc_pos]; rfl
          · simp only [Spec.deqStep]
            rw [win_head _ (by rw [parts_length]; exact hlt), hget, win_tail]
          · simp only; omega
          · simp only [restRng]; omega
          · simp only [restRng]; omega
          · intro x j
            simp only [restRng, if_neg hd, Span.num]
            split <;> split <;> split <;> grind
        | back =>
          have hget := rparts_get m (2 ^ m - 1 - c) r (by omega)
          rw [show 2 ^ m - 1 - c + 1 = 2 ^ m - c by omega] at hget
          refine part_step R (p := ⟨cut m (2 ^ m - 1 - c) r, cut m (2 ^ m - c) r - cut m (2 ^ m - 1 - c) r⟩) (f' := f) (c' := c + 1)
            e1 e2 h1 h2 h3 (by omega) ?_ ?_ ?_ ?_ ?_ ?_
          · simp only
            rw [est, SliceItemsParts.nextBack_pstate _ _ _ _ _ hin h2 hlt, hget]
            simp only [Option.map_some, enc_pos]; rfl
          · simp only [Spec.deqStep]
            rw [win_last _ (by rw [parts_length]; exact hlt), parts_length, hget, win_dropLast]
          · simp only; omega
          · simp only [restRng]; omega
          · simp only [restRng]
            rw [show 2 ^ m - (c + 1) = 2 ^ m - 1 - c by omega]; omega
          · intro x j
            have he : 2 ^ m - (c + 1) = 2 ^ m - 1 - c := by omega
            simp only [restRng, if_neg hd, Span.num, he]
            split <;> split <;> split <;> grind
    | _ => exact .inv R (by simp only [exec, e1]) (by simp only [World.act, e2])

/-- Every call does what the specification says. -/
theorem exec_sim (R : Rel umax s w T) (op : Op α) : Sim umax s w T op := by
  cases op with
  | rcNew xs => exact sim_rcNew R xs
  | mutNew xs => exact sim_mutNew R xs
  | weakNew => exact sim_weakNew R
  | clone k => exact sim_clone R k
  | cloneSide sd k => exact sim_cloneSide R sd k
  | splitOff sd k => exact sim_splitOff R sd k
  | getMut k j a => exact sim_getMut R k j a
  | write k j a => exact sim_write R k j a
  | read k => exact sim_read R k
  | intoMut k => exact sim_intoMut R k
  | intoImmut k => exact sim_intoImmut R k
  | downgrade k => exact sim_downgrade R k
  | upgrade k => exact sim_upgrade R k
  | drop k => exact sim_drop R k
  | intoIter k => exact sim_intoIter R k
  | next e k => exact sim_next R e k
  | splitOffFrom k n => exact sim_splitOffFrom R k n
  | splitOffTo k n => exact sim_splitOffTo R k n
  | intoParts k n => exact sim_intoParts R k n
  | nextPart e k => exact sim_nextPart R e k

end

end Verif.Rc
