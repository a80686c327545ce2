import Verif.Apps.ComdHalo
import Verif.Apps.Phased
set_option autoImplicit false
/-
C159: buffers, messages and the end of the halo exchanges of CoMD.
-/
namespace Verif.Apps.Comd

/-- `MAXATOMS`, linkCells.h:10. -/
def maxAtoms : Int := 64

/-- The buffers hold the atoms of all cells of all faces, for cells with up to `MAXATOMS` atoms,
exactly if the faces in x are not larger than all others. -/
theorem C159_capacity_partial (g : V3) :
    ((∀ f, atomCount g f * maxAtoms ≤ atomCapacity g * maxAtoms) ↔
      ((g.y + 2) * (g.z + 2) ≤ (g.x + 2) * (g.z + 2) ∨ (g.y + 2) * (g.z + 2) ≤ (g.x + 2) * (g.y + 2))) ∧
    ((∀ f, forceCount g f * maxAtoms ≤ forceCapacity g * maxAtoms) ↔
      (g.y * g.z ≤ (g.x + 2) * g.z ∨ g.y * g.z ≤ (g.x + 2) * (g.y + 2))) := by
  have e1 : 2 * (g.y + 2) * (g.z + 2) = 2 * ((g.y + 2) * (g.z + 2)) := Int.mul_assoc _ _ _
  have e2 : 2 * (g.x + 2) * (g.z + 2) = 2 * ((g.x + 2) * (g.z + 2)) := Int.mul_assoc _ _ _
  have e3 : 2 * (g.x + 2) * (g.y + 2) = 2 * ((g.x + 2) * (g.y + 2)) := Int.mul_assoc _ _ _
  unfold maxAtoms
  constructor
  · constructor
    · intro h
      have := h .xm
      simp only [atomCount, atomCapacity] at this
      omega
    · intro h f
      cases f <;> simp only [atomCount, atomCapacity] <;> omega
  · constructor
    · intro h
      have := h .xm
      simp only [forceCount, forceCapacity] at this
      omega
    · intro h f
      cases f <;> simp only [forceCount, forceCapacity] <;> omega

/-- **Refuted.** With 2 by 20 by 20 cells on a rank (the assertion of linkCells.c:109 holds) and 40
atoms in each cell, fewer than `MAXATOMS`, the atoms of the face in x do not fit in the buffer; nor
do the forces. -/
theorem C159_capacity_refuted : ∃ g : V3, 2 ≤ g.x ∧ 2 ≤ g.y ∧ 2 ≤ g.z ∧ (40 : Int) < maxAtoms ∧
    atomCapacity g * maxAtoms < ((atomCells g .xm).length : Int) * 40 ∧ forceCapacity g * maxAtoms < ((sendCells g .xm).length : Int) * 40 :=
  ⟨⟨2, 20, 20⟩, by decide +kernel⟩

/-- A message of a run: the exchange, the axis, and whether it goes through the minus face. -/
structure Msg where
  k : Nat
  a : Axis
  minus : Bool

/-- The face that a message leaves through. -/
def Msg.out (m : Msg) : Face := if m.minus then m.a.faceM else m.a.faceP

/-- The face that a message comes in through. -/
def Msg.into (m : Msg) : Face := if m.minus then m.a.faceP else m.a.faceM

/-- The messages of a run in order. -/
def msgs (m : Nat) : List Msg :=
  (List.range m).flatMap fun k => [Axis.x, .y, .z].flatMap fun a => [⟨k, a, true⟩, ⟨k, a, false⟩]

/-- The calls for a message. -/
def Msg.calls (p : V3) (size : Nat → Int → Face → Int) (cap : Nat → Int) (r : Int) (m : Msg) : List Instr :=
  sendReceive (size m.k r m.out) (nbrRank p r m.out) (cap m.k) (nbrRank p r m.into)

theorem blocks_eq (p : V3) (size : Nat → Int → Face → Int) (cap : Nat → Int) (m : Nat) (r : Int) :
    blocks p size cap m r = (msgs m).map (Msg.calls p size cap r) := by
  unfold blocks msgs
  rw [List.map_flatMap]
  congr 1

theorem app_some {n : Int} {p : V3} {size : Nat → Int → Face → Int} {cap : Nat → Int} {m : Nat} {W : World} (h : app n p size cap m = some W) :
    p.x * p.y * p.z = n ∧ W.size = n ∧ ∀ r, W.Has r → W.prog r = ((msgs m).map (Msg.calls p size cap r)).flatten := by
  unfold app at h
  split at h
  · exact nomatch h
  · rename_i hn
    simp only [Decidable.not_not] at hn
    simp only [Option.some.injEq] at h
    subst h
    refine ⟨hn, rfl, fun r hr => ?_⟩
    show (if 0 ≤ r ∧ r < n then _ else _) = _
    have hr' : 0 ≤ r ∧ r < n := hr
    rw [if_pos hr', blocks_eq]

theorem sends_msg (p : V3) (size : Nat → Int → Face → Int) (cap : Nat → Int) (r s t : Int) (m : Msg) :
    sends (m.calls p size cap r) s t = if nbrRank p r m.out = s ∧ 0 = t then [size m.k r m.out] else [] := by
  unfold sends Msg.calls sendReceive
  simp only [List.filterMap_cons, List.filterMap_nil, isSend]
  by_cases h : nbrRank p r m.out = s ∧ 0 = t <;> simp [h]

theorem recvs_msg (p : V3) (size : Nat → Int → Face → Int) (cap : Nat → Int) (r s t : Int) (m : Msg) :
    recvs (m.calls p size cap r) s t = if nbrRank p r m.into = s ∧ 0 = t then [cap m.k] else [] := by
  unfold recvs Msg.calls sendReceive
  simp only [List.filterMap_cons, List.filterMap_nil, isRecv]
  by_cases h : nbrRank p r m.into = s ∧ 0 = t <;> simp [h]

/-- A message from `r` to `s` is expected by `s` from `r`. -/
theorem C159_pairs {p : V3} {r s : Int} (hp : Pos3 p) (hr : 0 ≤ r ∧ r < p.x * p.y * p.z) (hs : 0 ≤ s ∧ s < p.x * p.y * p.z) (m : Msg) :
    nbrRank p r m.out = s ↔ nbrRank p s m.into = r := by
  have h1 := C159_neighbours hp hr.1 hr.2 m.a
  have h2 := C159_neighbours hp hs.1 hs.2 m.a
  unfold Msg.out Msg.into
  cases m.minus
  · constructor
    · intro h; subst h; exact h1.2.1
    · intro h; subst h; exact h2.1
  · constructor
    · intro h; subst h; exact h1.1
    · intro h; subst h; exact h2.2.1

theorem paired {α : Type} (c : α → Prop) [DecidablePred c] (a b : α → Int) (hab : ∀ x, a x ≤ b x) (l : List α) :
    (l.flatMap fun x => if c x then [a x] else []).length = (l.flatMap fun x => if c x then [b x] else []).length ∧
    ∀ (i : Nat) n m, (l.flatMap fun x => if c x then [a x] else [])[i]? = some n → (l.flatMap fun x => if c x then [b x] else [])[i]? = some m → n ≤ m := by
  induction l with
  | nil => simp
  | cons x l ih =>
    rw [List.flatMap_cons, List.flatMap_cons]
    by_cases h : c x
    · rw [if_pos h, if_pos h]
      refine ⟨by simp only [List.length_append, List.length_cons, List.length_nil]; omega, fun i n m hn hm => ?_⟩
      cases i with
      | zero =>
        simp at hn hm
        have := hab x
        omega
      | succ i =>
        rw [List.singleton_append, List.getElem?_cons_succ] at hn hm
        exact ih.2 i n m hn hm
    · rw [if_neg h, if_neg h]
      exact ih

theorem flat {α β : Type} (f : Instr → Option β) (g : α → List Instr) (h : α → List β) (l : List α) (hh : ∀ a, (g a).filterMap f = h a) :
    ((l.map g).flatten).filterMap f = l.flatMap h := by
  induction l with
  | nil => rfl
  | cons c l ih => rw [List.map_cons, List.flatten_cons, List.filterMap_append, hh, ih, List.flatMap_cons]

/-- Each message has a receive that is large enough, if the loads do not exceed the capacity. -/
theorem C159_fits {n : Int} {p : V3} {size : Nat → Int → Face → Int} {cap : Nat → Int} {m : Nat} {W : World} (h : app n p size cap m = some W)
    (hp : Pos3 p) (hcap : ∀ k r f, size k r f ≤ cap k) : Fits W := by
  obtain ⟨hn, hsz, hprog⟩ := app_some h
  intro s d t hs hd
  have hs' : 0 ≤ s ∧ s < p.x * p.y * p.z := by rw [hn, ← hsz]; exact hs
  have hd' : 0 ≤ d ∧ d < p.x * p.y * p.z := by rw [hn, ← hsz]; exact hd
  have e1 : sends (W.prog s) d t = (msgs m).flatMap fun x => if nbrRank p s x.out = d ∧ 0 = t then [size x.k s x.out] else [] := by
    rw [hprog s hs]; exact flat _ _ _ _ (fun a => sends_msg p size cap s d t a)
  have e2 : recvs (W.prog d) s t = (msgs m).flatMap fun x => if nbrRank p s x.out = d ∧ 0 = t then [cap x.k] else [] := by
    rw [hprog d hd]
    refine flat _ _ _ _ (fun a => ?_)
    have := recvs_msg p size cap d s t a
    unfold recvs at this
    rw [this]
    simp only [C159_pairs hp hs' hd' a]
  rw [e1, e2]
  exact paired (fun x : Msg => nbrRank p s x.out = d ∧ 0 = t) _ _ (fun x => hcap x.k s x.out) (msgs m)

/-- All messages stay among the ranks. -/
theorem C159_inside {n : Int} {p : V3} {size : Nat → Int → Face → Int} {cap : Nat → Int} {m : Nat} {W : World} (h : app n p size cap m = some W)
    (hp : Pos3 p) : Inside W := by
  obtain ⟨hn, hsz, hprog⟩ := app_some h
  intro r hr i hi
  have hr' : 0 ≤ r ∧ r < p.x * p.y * p.z := by rw [hn, ← hsz]; exact hr
  have hnb := (C159_neighbours hp hr'.1 hr'.2 .x).2.2
  have hhas : ∀ f, W.Has (nbrRank p r f) := fun f => by
    unfold World.Has; rw [hsz, ← hn]; exact hnb f
  rw [hprog r hr, List.mem_flatten] at hi
  obtain ⟨l, hl, hi⟩ := hi
  obtain ⟨x, _, rfl⟩ := List.mem_map.1 hl
  simp only [Msg.calls, sendReceive, List.mem_cons, List.not_mem_nil, or_false] at hi
  rcases hi with rfl | rfl | rfl
  · refine ⟨fun d t k hh => by simp at hh, fun d t k hh => ?_⟩
    simp only [Instr.irecv.injEq, reduceCtorEq, or_false] at hh
    rw [← hh.1]
    exact hhas _
  · refine ⟨fun d t k hh => ?_, fun d t k hh => by simp at hh⟩
    simp only [Instr.isend.injEq, reduceCtorEq, or_false] at hh
    rw [← hh.1]
    exact hhas _
  · exact ⟨fun d t k hh => by simp at hh, fun d t k hh => by simp at hh⟩

/-- **The exchanges end**, for any number of them, any grid of ranks, also with one or two ranks
along an axis, any sizes and any threshold of eager sends. -/
theorem C159_ends {n : Int} {p : V3} {size : Nat → Int → Face → Int} {cap : Nat → Int} {m : Nat} {W : World} (h : app n p size cap m = some W)
    (hp : Pos3 p) (eager : Int → Prop) : Completes W eager := by
  obtain ⟨hn, hsz, hprog⟩ := app_some h
  have has : ∀ r, W.Has r → 0 ≤ r ∧ r < p.x * p.y * p.z := fun r hr => by rw [hn, ← hsz]; exact hr
  have get : ∀ r (i : Nat) a, ((msgs m).map (Msg.calls p size cap r))[i]? = some a → ∃ k, (msgs m)[i]? = some k ∧ Msg.calls p size cap r k = a := by
    intro r i a ha
    rw [List.getElem?_map] at ha
    cases hk : (msgs m)[i]? with
    | none => rw [hk] at ha; simp at ha
    | some k => rw [hk] at ha; exact ⟨k, rfl, by simpa using ha⟩
  have noc : ∀ r (x : Msg) ms, colls (x.calls p size cap r) ms = [] := fun r x ms => rfl
  refine phased_completes (fun r => (msgs m).map (Msg.calls p size cap r)) hprog (fun _ _ _ _ => by simp) ?_ (C159_inside h hp) ?_ ?_ ?_ eager
  · intro r _ b hb
    obtain ⟨x, _, rfl⟩ := List.mem_map.1 hb
    refine .exchange [.irecv (nbrRank p r x.into) 0 (cap x.k), .isend (nbrRank p r x.out) 0 (size x.k r x.out)] fun c hc => ?_
    simp only [List.mem_cons, List.not_mem_nil, or_false] at hc
    rcases hc with rfl | rfl <;> simp [Instr.Free]
  · intro r s t hr hs i a b ha hb
    obtain ⟨x, hx, rfl⟩ := get r i a ha
    obtain ⟨y, hy, rfl⟩ := get s i b hb
    rw [hx] at hy
    simp only [Option.some.injEq] at hy
    subst hy
    rw [recvs_msg, sends_msg]
    have := C159_pairs hp (has s hs) (has r hr) x
    by_cases h1 : nbrRank p s x.out = r
    · have h2 := this.1 h1
      by_cases h3 : 0 = t <;> simp [h1, h2, h3]
    · have h2 : ¬ nbrRank p r x.into = s := fun hh => h1 (this.2 hh)
      simp [h1, h2]
  · intro r s ms _ _ i a b ha hb
    obtain ⟨x, hx, rfl⟩ := get r i a ha
    obtain ⟨y, hy, rfl⟩ := get s i b hb
    rw [noc, noc]
  · intro r hr ms k c hc q hq
    rw [hprog r hr, List.mem_flatten] at hc
    obtain ⟨l, hl, hc⟩ := hc
    obtain ⟨x, _, rfl⟩ := List.mem_map.1 hl
    simp [Msg.calls, sendReceive] at hc

/-- Two ranks along x, one along the others: both neighbours are the same rank, and rank 0 sends it
both messages of an exchange in x and itself the others. -/
example : ∃ W, app 2 ⟨2, 1, 1⟩ (fun k r f => if f = .xm then 10 + r else 20 + k) (fun _ => 99) 1 = some W ∧
    sends (W.prog 0) 1 0 = [10, 20] ∧ recvs (W.prog 1) 0 0 = [99, 99] ∧ sends (W.prog 0) 0 0 = [20, 20, 20, 20] :=
  ⟨_, rfl, by decide +kernel, by decide +kernel, by decide +kernel⟩

example : Pos3 ⟨2, 3, 4⟩ ∧ Cell ⟨2, 3, 4⟩ ⟨-1, 3, 0⟩ := by simp [Pos3, Cell]

end Verif.Apps.Comd
