import Verif.SharedPoolSound
import Verif.DequePoolRun

/-! Helper lemmas: deques keep to their own blocks and tables in the pool. -/

namespace Verif.Shared

open Prog Pool
open DeqPool (PWorld Ctx Rel0 ownOf lenOf lenOf_some)
open Deq (tblOf)

variable {α : Type} {c : Sma.Cfg}

/-! ## Finitely many deques -/

def FinDeq (sw : Deq.SWorld α) : Prop := ∃ ks : List Nat, ks.Nodup ∧ ∀ k, k ∈ ks ↔ sw k ≠ none

theorem FinDeq.put {sw : Deq.SWorld α} (h : FinDeq sw) (k : Nat) (v : Option (Deq.SD α)) : FinDeq (sw.put k v) := by
  obtain ⟨ks, h1, h2⟩ := h
  have hmem : ∀ x, x ∈ ks.erase k ↔ x ≠ k ∧ x ∈ ks := fun x => h1.mem_erase_iff
  cases v with
  | none =>
    refine ⟨ks.erase k, h1.erase k, fun x => ?_⟩
    rw [hmem, h2]
    unfold Deq.SWorld.put
    by_cases hx : x = k <;> simp [hx]
  | some v =>
    refine ⟨k :: ks.erase k, List.nodup_cons.2 ⟨fun h => ((hmem k).1 h).1 rfl, h1.erase k⟩, fun x => ?_⟩
    rw [List.mem_cons, hmem, h2]
    unfold Deq.SWorld.put
    by_cases hx : x = k <;> simp [hx]

theorem FinDeq.step {sw sw' : Deq.SWorld α} (h : FinDeq sw) {op : Deq.Op α} (hs : Deq.specStep op sw = some sw') :
    FinDeq sw' := by
  cases op <;> simp only [Deq.specStep, Option.bind_eq_some_iff] at hs
  case new => split at hs <;> cases hs; exact h.put _ _
  case pushBack => obtain ⟨_, _, hs⟩ := hs; cases hs; exact h.put _ _
  case pushFront => obtain ⟨_, _, hs⟩ := hs; cases hs; exact h.put _ _
  case pushBackElem => obtain ⟨_, _, _, _, _, _, hs⟩ := hs; cases hs; exact h.put _ _
  case pushFrontElem => obtain ⟨_, _, _, _, _, _, hs⟩ := hs; cases hs; exact h.put _ _
  case popBack => obtain ⟨_, _, hs⟩ := hs; split at hs <;> cases hs; exact h.put _ _
  case popFront => obtain ⟨_, _, hs⟩ := hs; split at hs <;> cases hs; exact h.put _ _
  case clear => obtain ⟨_, _, hs⟩ := hs; cases hs; exact h.put _ _
  case set => obtain ⟨_, _, hs⟩ := hs; split at hs <;> cases hs; exact h.put _ _
  case copy =>
    obtain ⟨_, _, _, _, hs⟩ := hs
    split at hs <;> cases hs
    · exact h
    · exact h.put _ _
  case move =>
    obtain ⟨_, _, _, _, hs⟩ := hs
    split at hs <;> cases hs
    · exact h
    · exact (h.put _ _).put _ _
  case drop => obtain ⟨_, _, hs⟩ := hs; cases hs; exact h.put _ _

/-! ## Their blocks -/

/-- The blocks and tables of the deques. -/
def DList (C : Ctx α) (w : PWorld α) (own : List (Nat × Int)) : Prop :=
  ∃ bs ts, bs.Nodup ∧ (∀ b, b ∈ bs ↔ (w.deq.blk b).isSome = true) ∧ ts.Nodup ∧
    (∀ k, k ∈ ts ↔ lenOf w.deq k ≠ 0) ∧ own = ownOf C w bs ts

theorem DList.has {C : Ctx α} {w : PWorld α} {own : List (Nat × Int)} (h : DList C w own) (hR : Rel0 C w) :
    DeqPool.Has C.P.sma C.F own w.pool := by
  obtain ⟨bs, ts, h1, h2, h3, h4, rfl⟩ := h
  obtain ⟨bs', ts', g1, g2, g3, g4, g5⟩ := hR.holds
  have e1 : bs'.Perm bs := (List.perm_ext_iff_of_nodup g1 h1).2 fun b => (g2 b).trans (h2 b).symm
  have e2 : ts'.Perm ts := (List.perm_ext_iff_of_nodup g3 h3).2 fun k => (g4 k).trans (h4 k).symm
  refine g5.perm ?_
  rw [List.append_nil]
  exact (e1.map _).append (e2.map _)

theorem DList.of_rel {C : Ctx α} {w : PWorld α} (hR : Rel0 C w) : ∃ own, DList C w own := by
  obtain ⟨bs, ts, g1, g2, g3, g4, _⟩ := hR.holds
  exact ⟨_, bs, ts, g1, g2, g3, g4, rfl⟩

theorem obj_iff {cfg : Deq.Cfg α} {m : Deq.World α} {sw : Deq.SWorld α} (h : Deq.WInv cfg m sw) (k : Nat) :
    sw k ≠ none ↔ m.obj k ≠ none := by
  have := h.obj k
  cases h1 : m.obj k <;> cases h2 : sw k <;> rw [h1, h2] at this <;> simp_all [Deq.ObjOpt]

theorem deque_uses {C : Ctx α} {w : PWorld α} {sw : Deq.SWorld α} {own : List (Nat × Int)}
    (hI : Deq.WInv C.acfg w.deq sw) (hf : FinDeq sw) (h : DList C w own) :
    ∃ bs, DequeBlocks (C.P.size * C.P.A) w bs ∧ bs.Perm (Sma.taken own) := by
  obtain ⟨ks, k1, k0⟩ := hf
  have k2 : ∀ k, k ∈ ks ↔ w.deq.obj k ≠ none := fun k => (k0 k).trans (obj_iff hI k)
  obtain ⟨bs, ts, h1, h2, h3, h4, rfl⟩ := h
  refine ⟨_, ⟨ks, k1, k2, rfl⟩, ?_⟩
  have hblocks : (ks.flatMap fun k => tblOf (w.deq.obj k)).Perm bs := by
    have hn : (ks.flatMap fun k => tblOf (w.deq.obj k)).Nodup := by
      refine List.pairwise_flatMap.2 ⟨fun k _ => (hI.own k).1, k1.imp fun {a b} hne x hx y hy e => ?_⟩
      exact hI.disj a b hne x hx (e ▸ hy)
    refine (List.perm_ext_iff_of_nodup hn h1).2 fun b => ?_
    rw [h2, List.mem_flatMap]
    constructor
    · rintro ⟨k, _, hb⟩
      obtain ⟨_, _, f, hf⟩ := (hI.own k).2 b hb
      rw [hf]; rfl
    · intro hb
      obtain ⟨f, hf⟩ := Option.isSome_iff_exists.1 hb
      obtain ⟨k, hk⟩ := hI.owned b f hf
      refine ⟨k, (k2 k).2 fun e => ?_, hk⟩
      rw [e] at hk
      cases hk
  have htabs : (ks.filter fun k => decide (lenOf w.deq k ≠ 0)).Perm ts := by
    refine (List.perm_ext_iff_of_nodup (k1.filter _) h3).2 fun k => ?_
    rw [List.mem_filter, h4, k2, decide_eq_true_iff]
    refine ⟨fun h => h.2, fun h => ⟨fun e => h ?_, h⟩⟩
    unfold lenOf
    rw [e]
    rfl
  have hsplit : (ks.flatMap fun k => ((w.deq.obj k).map fun d =>
      (if d.tbl = [] then [] else [(w.tab k, taken8 8 d.tbl.length)]) ++
        d.tbl.map fun b => (w.blk b, taken8 (C.P.size * C.P.A) 1)).getD []) =
      ks.flatMap fun k => (if lenOf w.deq k ≠ 0 then [(w.tab k, taken8 8 (lenOf w.deq k))] else []) ++
        (tblOf (w.deq.obj k)).map fun b => (w.blk b, taken8 (C.P.size * C.P.A) 1) := by
    congr 1
    funext k
    unfold lenOf
    cases w.deq.obj k with
    | none => rfl
    | some d =>
      simp only [Option.map_some, Option.getD_some, tblOf]
      by_cases e : d.tbl = []
      · simp [e]
      · rw [if_neg e, if_pos (fun h => e (List.length_eq_zero_iff.1 h))]
  rw [hsplit]
  refine (List.flatMap_append_perm _ _ _).symm.trans ?_
  have e1 : (ks.flatMap fun k => if lenOf w.deq k ≠ 0 then [(w.tab k, taken8 8 (lenOf w.deq k))] else []) =
      (ks.filter fun k => decide (lenOf w.deq k ≠ 0)).map fun k => (w.tab k, taken8 8 (lenOf w.deq k)) := by
    clear htabs hsplit hblocks k1 k2 k0
    induction ks with
    | nil => rfl
    | cons k ks ih =>
      rw [List.flatMap_cons, ih]
      by_cases e : lenOf w.deq k = 0 <;> simp [e]
  have e2 : (ks.flatMap fun k => (tblOf (w.deq.obj k)).map fun b => (w.blk b, taken8 (C.P.size * C.P.A) 1)) =
      (ks.flatMap fun k => tblOf (w.deq.obj k)).map fun b => (w.blk b, taken8 (C.P.size * C.P.A) 1) :=
    (List.map_flatMap ..).symm
  rw [e1, e2]
  refine List.perm_append_comm.trans ?_
  unfold Sma.taken ownOf
  rw [List.map_append, List.map_map, List.map_map]
  have h8 : ∀ s n : Nat, taken8 s n = Sma.up8 ((s * n : Nat) : Int) := fun s n => by
    unfold taken8 Sma.up8 Sma.roundUp
    generalize s * n = z
    omega
  simp only [h8, Nat.mul_one]
  exact (hblocks.map _).append (htabs.map _)

/-! ## The class -/

/-- The deques of a configuration, blocks of which cannot touch. -/
def dctx (c : Sma.Cfg) (A size : Nat) (d : α) (F : Rest) : Ctx α := ⟨⟨c, A, size, d⟩, none, F⟩

theorem rel_reframe {A size : Nat} {d : α} {F F' : Rest} {s s' : Sma.St} {o : Deques α} {own : List (Nat × Int)}
    (hR : Rel0 (dctx c A size d F) ((deques A size d).pack s o))
    (hl : DList (dctx c A size d F) ((deques A size d).pack s o) own) (h1 : Owned c F' own s') (h2 : Kept F' s') :
    Rel0 (dctx c A size d F') ((deques A size d).pack s' o) where
  old := hR.old
  holds := by
    obtain ⟨bs, ts, g1, g2, g3, g4, rfl⟩ := hl
    refine ⟨bs, ts, g1, g2, g3, g4, ?_⟩
    rw [List.append_nil]
    exact ⟨h1, h2⟩
  none := hR.none
  small := hR.small
  cap := hR.cap
  hit := hR.hit
  up := hR.up
  agree f hf := by cases hf

def dequeSound (hc : Sma.Legal c) (hM : 2 * c.M + 8 < 2 ^ 31) (A size : Nat) (d : α) (hA : 0 < A) (hsz : 0 < size)
    (hfit : size * A + 8 < 2 ^ 31) (hodd : size * A % 8 ≠ 0) : Sound c (deques A size d) (dequeMeaning A size d) :=
  have hC : ∀ F, Ctx.Ok (dctx c A size d F) := fun F => ⟨hc, hA, hsz, hfit, by
    show c.M + 16 < 2 ^ 31
    omega, fun _ => hodd⟩
  { Inv := fun F s o sp own => Rel0 (dctx c A size d F) ((deques A size d).pack s o) ∧
      Deq.WInv (dctx c A size d F).acfg o.deq sp ∧ FinDeq sp ∧ DList (dctx c A size d F) ((deques A size d).pack s o) own
    owned := fun h => h.2.2.2.has h.1
    init := by
      intro F s h1 h2
      refine ⟨?_, Deq.WInv.init, ⟨[], List.nodup_nil, by simp [dequeMeaning]⟩, [], [], List.nodup_nil, ?_, List.nodup_nil, ?_, rfl⟩
      · exact
          { old := fun _ hb => by cases hb
            holds := ⟨[], [], List.nodup_nil, fun b => ⟨fun h => (by cases h), fun h => (by cases h)⟩, List.nodup_nil,
              fun b => ⟨fun h => (by cases h), fun h => absurd rfl h⟩, h1, h2⟩
            none := fun _ _ => rfl
            small := fun _ => by
              show 8 * 0 + 8 < 2 ^ 31
              omega
            cap := fun k _ => by
              show 0 / _ ≤ 0
              rw [Nat.zero_div]
            hit := rfl
            up := fun _ _ hb => by cases hb
            agree := fun f hf => by cases hf }
      · exact fun b => ⟨fun h => (by cases h), fun h => (by cases h)⟩
      · exact fun b => ⟨fun h => (by cases h), fun h => absurd rfl h⟩
    step := by
      rintro F s o sp own op ⟨hR, hI, hf, hl⟩ ⟨h1, h2⟩
      obtain ⟨sp', hs⟩ := Option.ne_none_iff_exists'.1 h1
      rcases DeqPool.step_any (hC F) hR hI hs h2 with ⟨w1, e1, hR1, hI1⟩ | ⟨e, hst⟩ | ⟨f, hf, _⟩
      · obtain ⟨own', hl'⟩ := DList.of_rel hR1
        exact Or.inr ⟨(), w1, sp', own', e1, trivial, hs, hR1, hI1, hf.step hs, hl'⟩
      · exact Or.inl ⟨hst rfl, e⟩
      · cases hf
    reframe := by
      rintro F F' s s' o sp own ⟨hR, hI, hf, hl⟩ h1 h2 _
      exact ⟨rel_reframe hR hl h1 h2, hI, hf, hl⟩
    shows := by
      rintro F s o sp own ⟨hR, hI, _, _⟩
      have := DeqPool.Rel.shows (C := dctx c A size d F) (w := (deques A size d).pack s o) (hC F) hR hI
      exact this
    uses := by
      rintro F s o sp own ⟨_, hI, hf, hl⟩
      exact deque_uses (C := dctx c A size d F) (w := (deques A size d).pack s o) hI hf hl }

end Verif.Shared
