import Verif.AVLWorldLemmas

/-! # Memberwise copies of AVL trees -/

namespace Verif.AVL

open Prog Verif.Tree

variable {α : Type} {lt : α → α → Bool}

theorem copy_faults {w : World α} {sw : SWorld α} (h : HoldsSet lt w sw) (d s : Nat) {l : List α}
    (hs : sw s = some l) (hn : l ≠ []) (hd : d ≠ s) :
    ∃ w1, Returns (copyObj d s) w () w1 ∧ Returns (on d elements) w1 l w1 ∧
      ∀ a b, (a = d ∧ b = s) ∨ (a = s ∧ b = d) → ∃ w2, Returns (dropObj a) w1 () w2 ∧
        (∀ x, Faults (on b (find lt x)) w2 .useAfterFree) ∧ Faults (on b Tree.clear) w2 .useAfterFree ∧
        Faults (dropObj b) w2 .useAfterFree := by
  obtain ⟨g, h, hg⟩ := h
  obtain ⟨t, ht, rfl⟩ := HoldsSet.get hg hs
  have hne : t ≠ .nil := fun e => hn (vals_eq_nil.2 e)
  have hload := h.load ht
  have ho := h.obj s t ht
  obtain ⟨r, hr⟩ : ∃ r, t.root = some r := by
    cases hr : t.root with
    | none => exact absurd (T.root_none.1 hr) hne
    | some r => exact ⟨r, rfl⟩
  refine ⟨_, copyObj_ok ho, on_observes (h := (t.root, t.count)) (upd_self _ _ _) (elements_ok hload hne), ?_⟩
  intro a b hab
  have hoa : upd w.obj d (some (t.root, t.count)) a = some (t.root, t.count) ∧
      upd w.obj d (some (t.root, t.count)) b = some (t.root, t.count) ∧ b ≠ a := by
    rcases hab with ⟨rfl, rfl⟩ | ⟨rfl, rfl⟩
    · exact ⟨upd_self _ _ _, by rw [upd_ne _ _ (Ne.symm hd)]; exact ho, Ne.symm hd⟩
    · exact ⟨by rw [upd_ne _ _ (Ne.symm hd)]; exact ho, upd_self _ _ _, hd⟩
  obtain ⟨_, s', h1, h2, h3, h4, h5, h6, h7⟩ := clear_ok hload
  have hcl := on_returns (w := { w with obj := upd w.obj d (some (t.root, t.count)) }) hoa.1 h1
  have hdr : s'.dat r = none := h6 r (T.root_mem hr)
  have hdrop := bind_returns (f := fun _ => Prog.modify fun w : World α => { w with obj := upd w.obj a none }) hcl
  have hob : upd (upd (upd w.obj d (some (t.root, t.count))) a (some (s'.root, s'.size))) a none b =
      some (some r, t.count) := by
    rw [upd_ne _ _ hoa.2.2, upd_ne _ _ hoa.2.2, hoa.2.1, hr]
  obtain ⟨w2, e, hm, hob⟩ : ∃ w2 : World α, Returns (dropObj a) { w with obj := upd w.obj d (some (t.root, t.count)) } () w2 ∧
      w2.mem.dat r = none ∧ w2.obj b = some (some r, t.count) := ⟨_, hdrop, hdr, hob⟩
  have hc : Faults (on b Tree.clear) w2 .useAfterFree := on_faults hob (clear_dangling rfl hm)
  exact ⟨w2, e, fun x => on_faults hob (find_dangling (s := w2.load (some r, t.count)) rfl hm x), hc, bind_faults hc⟩

theorem assign_leaks {w : World α} {sw : SWorld α} (h : HoldsSet lt w sw) (d s : Nat) {l : List α}
    (hs : sw s = some []) (hd : sw d = some l) (hn : l ≠ []) :
    ∃ w' n, Returns (copyObj d s) w () w' ∧ Allocated w'.mem n ∧
      ∀ k r c, w'.obj k = some (r, c) → ¬ Below w'.mem r n := by
  obtain ⟨g, h, hg⟩ := h
  obtain ⟨t, ht, rfl⟩ := HoldsSet.get hg hd
  obtain ⟨u, hu, e⟩ := HoldsSet.get hg hs
  rw [vals_eq_nil] at e
  subst e
  obtain ⟨r, hr⟩ : ∃ r, t.root = some r := by
    cases hr : t.root with
    | none => exact absurd (vals_eq_nil.2 (T.root_none.1 hr)) hn
    | some r => exact ⟨r, rfl⟩
  refine ⟨_, r, copyObj_ok (h.obj s _ hu), h.allocated.2 ⟨d, t, ht, T.root_mem hr⟩, ?_⟩
  intro k r' c hk hb
  by_cases e : k = d
  · subst e
    simp only [upd_self, T.root, Option.some.injEq, Prod.mk.injEq] at hk
    rw [← hk.1] at hb
    cases hb
  · have hk' : w.obj k = some (r', c) := by rw [← hk]; exact (upd_ne _ _ e).symm
    obtain ⟨v, hv, rfl, rfl⟩ := h.get hk'
    exact h.disj k d v t hv ht e r ((below_root (h.rep k v hv)).1 hb) (T.root_mem hr)

end Verif.AVL
