import Verif.EmbeddedListLemmas

/-!
# Properties of embedded lists (C65)

`SpecRun ops w w'` (in `Verif/Spec/EmbeddedList.lean`) says that the history `ops`, used within
its preconditions, takes the abstract lists `w` to `w'`; `Shows kd m w` says what walking the
links of memory `m` gives.
-/

namespace Verif.EL

open Prog Verif.LL

variable {α : Type}

/-- **C65.**  For singly and doubly linked nodes alike, any history of creating nodes, `init`,
`add`, `del`, changing data and ending nodes, over any number of nodes and lists, runs without
fault.  Afterwards every node has its data, and every list is exactly what the history means:
walking `next` from the head visits its members in order and comes back to the head, walking
`prev` visits them in reverse, and `empty` tells whether it has members.  Whatever the links of a
new or removed node hold does not matter. -/
theorem embedded_list (kd : Kind) (ops : List (Op α)) (w : SWorld α)
    (h : SpecRun ops SWorld.none w) :
    ∃ m, Returns (run kd ops) Mem.init () m ∧ Shows kd m w := by
  obtain ⟨_, m, h1, h2⟩ := run_ok (kd := kd) WInv.init h
  exact ⟨m, h1, h2.shows⟩

/-- **C65, removed nodes.**  After `del(p, c)` the links of `c` are null, so following them from
a node that was taken out is a null access, not a walk through a list it no longer belongs to. -/
theorem embedded_del_null (kd : Kind) (ops : List (Op α)) (w w' : SWorld α) (p c : Nat)
    (h : SpecRun ops SWorld.none w) (hd : SpecStep (.del p c) w w') :
    ∃ m m', Returns (run kd ops) Mem.init () m ∧ Returns (step kd (.del p c)) m () m' ∧
      Shows kd m' w' ∧ w'.Free c ∧ Returns (getNext (.node c)) m' .null m' ∧
      (kd = .doubly → Returns (getPrev (.node c)) m' .null m') := by
  obtain ⟨_, m, h1, h2⟩ := run_ok (kd := kd) WInv.init h
  obtain ⟨_, m', h3, h4⟩ := step_ok h2 hd
  refine ⟨m, m', h1, h3, h4.shows, ?_⟩
  cases hd with
  | @del _ h _ _ pre post hl hp =>
    obtain ⟨_, m'', h5, h6, h7⟩ := del_null h2 hl hp
    obtain ⟨_, rfl⟩ := Returns.det h3 h5
    have hc : (w.data c).isSome := h2.own h _ hl c (by simp)
    have hlive : Live m' (.node c) := h4.lives hc
    refine ⟨⟨hc, ?_, ?_⟩, getNext_ok hlive h6, fun hk => getPrev_ok hlive (h7 hk)⟩
    · simp only [SWorld.setList]
      have hnd := h2.nodup h _ hl
      have hch : c ≠ h := by
        rintro rfl
        exact (List.nodup_cons.1 hnd).1 (by simp)
      rw [if_neg hch]
      rcases hcl : w.list c with _ | l
      · rfl
      · exact absurd (List.mem_cons_self ..)
          (h2.disj h c _ l hl hcl (Ne.symm hch) c (by simp))
    · intro h' l' hl' hm
      simp only [SWorld.setList] at hl'
      split at hl'
      · rename_i e; cases hl'; subst e
        have hnd := h2.nodup h' _ hl
        have hperm : (h' :: (pre ++ c :: post)).Perm (c :: h' :: (pre ++ post)) :=
          (List.perm_middle.cons h').trans (.swap ..)
        rw [hperm.nodup_iff] at hnd
        exact (List.nodup_cons.1 hnd).1 (List.mem_cons_of_mem _ hm)
      · rename_i hh
        exact h2.disj h' h l' _ hl' hl hh c (List.mem_cons_of_mem _ hm) (by simp)

/-- Two lists with heads 0 and 5: nodes 1, 2, 3 are put into the first one, 2 in the middle is
taken out and put into the second, all with garbage in the links of new nodes. -/
example : ∃ w : SWorld Nat, SpecRun [Op.make 0 100 .null .null, .make 1 101 (.node 9) .null,
      .make 2 102 (.head 1) (.node 2), .make 3 103 .null (.node 1), .make 5 105 .null .null,
      .init 0, .init 5, .add 0 3, .add 0 1, .add 1 2, .del 1 2, .add 5 2, .set 2 7] SWorld.none w ∧
    w.list 0 = some [1, 3] ∧ w.list 5 = some [2] ∧ w.data 2 = some 7 := by
  refine ⟨_, .cons (.make _ _ _ rfl) (.cons (.make _ _ _ rfl) (.cons (.make _ _ _ rfl)
    (.cons (.make _ _ _ rfl) (.cons (.make _ _ _ rfl) (.cons (.init (.inl ⟨rfl, rfl, ?_⟩))
    (.cons (.init (.inl ⟨rfl, rfl, ?_⟩))
    (.cons (.add (h := 0) (pre := []) (post := []) rfl rfl ⟨rfl, rfl, ?_⟩)
    (.cons (.add (h := 0) (pre := []) (post := [3]) rfl rfl ⟨rfl, rfl, ?_⟩)
    (.cons (.add (h := 0) (pre := [1]) (post := [3]) rfl rfl ⟨rfl, rfl, ?_⟩)
    (.cons (.del (h := 0) (pre := [1]) (post := [3]) rfl rfl)
    (.cons (.add (h := 5) (pre := []) (post := []) rfl rfl ⟨rfl, rfl, ?_⟩)
    (.cons (.set _ rfl) .nil)))))))))))), rfl, rfl, rfl⟩ <;>
  · intro h l hl
    simp only [SWorld.setList, SWorld.setData, SWorld.none] at hl
    repeat' split at hl
    all_goals first | (cases hl; done) | (cases hl; simp)

end Verif.EL
