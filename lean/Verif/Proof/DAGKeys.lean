import Verif.Model.DAGKeys
import Verif.Proof.Mutators

/-! # Helper lemmas about the keys of the dictionaries of a `DAG` object -/

namespace Model.Keyed

open Model
universe u
variable {α : Type u} [DecidableEq α]

set_option linter.unusedSectionVars false

/-- `r` does to the graph what `s` is. -/
def Sim (r : KStep α) (s : Step α) : Prop := r.1.dag = s.1 ∧ r.2 = s.2

theorem Sim.silent (f : DAG α → Step α) (K : Keyed α) : Sim (silent f K) (f K.dag) := ⟨rfl, rfl⟩

theorem Sim.andThen {r : KStep α} {s : Step α} (h : Sim r s) {f : Keyed α → KStep α} {g : DAG α → Step α}
    (hf : ∀ K, Sim (f K) (g K.dag)) : Sim (andThen r f) (s.andThen g) := by
  obtain ⟨K, e⟩ := r
  obtain ⟨G, e'⟩ := s
  obtain ⟨rfl, rfl⟩ : K.dag = G ∧ e = e' := h
  cases e with
  | none => exact hf K
  | some e => exact ⟨rfl, rfl⟩

theorem Sim.forEach {β : Type u} {f : Keyed α → β → KStep α} {g : DAG α → β → Step α} (hf : ∀ K x, Sim (f K x) (g K.dag x)) :
    ∀ (l : List β) (K : Keyed α), Sim (forEach f l K) (Model.forEach g l K.dag)
  | [], _ => ⟨rfl, rfl⟩
  | x :: l, K => (hf K x).andThen fun K => Sim.forEach hf l K

theorem sim_removeArc (ig : Bool) (K : Keyed α) (i j : α) : Sim (removeArc ig K i j) (DAG.removeArc ig K.dag i j) := by
  have h := ((((Sim.silent (DAG.delArc (i, j)) K).andThen (f := delParent j i) fun K => Sim.silent _ _).andThen
    (f := delChild i j) fun K => Sim.silent _ _).andThen (f := delNbr j i) fun K => Sim.silent _ _).andThen
    (f := delNbr i j) fun K => Sim.silent _ _
  cases ig with
  | false => exact h
  | true => exact ⟨h.1, rfl⟩

/-- Same as `Sim` for calls that need not come to an end. -/
def SimO : Option (KStep α) → Option (Step α) → Prop
  | none, none => True
  | some r, some s => Sim r s
  | _, _ => False

theorem sim_addArc (check : Bool) (o : SetOrder (Option α) α) (vis : Finset α) (K : Keyed α) (i j : α) :
    SimO (addArc check o vis K i j) (DAG.addArc check o K.dag i j) := by
  unfold addArc DAG.addArc
  cases check with
  | false => exact ⟨rfl, rfl⟩
  | true =>
    simp only [if_true]
    generalize (DAG.topologicalSort (K.dag.addArcUnchecked i j) o).run = r
    rcases r with _ | (e | l)
    · trivial
    · cases e with
      | cycle l =>
        exact (sim_removeArc false (touchSort vis { touchArc K i j with dag := DAG.addArcUnchecked K.dag i j }) i j).andThen
          fun K => ⟨rfl, rfl⟩
      | _ => exact ⟨rfl, rfl⟩
    · exact ⟨rfl, rfl⟩

theorem sim_addArcsFrom (check : Bool) (o : SetOrder (Option α) α) (oa : SetOrder Bool (α × α)) (vis : Finset α) (K : Keyed α)
    (arcs : Finset (α × α)) : SimO (addArcsFrom check o oa vis K arcs) (DAG.addArcsFrom check o oa K.dag arcs) := by
  unfold addArcsFrom DAG.addArcsFrom
  split_ifs with hc hk
  · exact ⟨rfl, rfl⟩
  · simp only
    generalize (DAG.topologicalSort (K.dag.addArcsUnchecked (oa.ord false arcs)) o).run = r
    rcases r with _ | (e | l)
    · trivial
    · cases e with
      | cycle l =>
        exact (Sim.forEach (f := fun K (a : α × α) => removeArc false K a.1 a.2) (g := fun G a => DAG.removeArc false G a.1 a.2)
          (fun K a => sim_removeArc false K a.1 a.2) (oa.ord true arcs) (touchSort vis
          { (oa.ord false arcs).foldl (fun K a => touchArc K a.1 a.2) K with
            dag := DAG.addArcsUnchecked K.dag (oa.ord false arcs) })).andThen
          (f := fun K => (K, some (.cycle l))) (g := fun G => (G, some (.cycle l))) fun K => ⟨rfl, rfl⟩
      | _ => exact ⟨rfl, rfl⟩
    · exact ⟨rfl, rfl⟩
  · exact ⟨rfl, rfl⟩

theorem sim_removeNode (ig : Bool) (o : SetOrder Bool α) (K : Keyed α) (v : α) :
    Sim (removeNode ig o K v) (DAG.removeNode ig o K.dag v) := by
  by_cases hv : v ∈ K.dag.nodes
  · have h := ((Sim.forEach (f := fun K p => andThen (delChild p v K) (delNbr p v))
      (g := fun G p => (DAG.delChild p v G).andThen (DAG.delNbr p v))
      (fun K p => (show Sim (delChild p v K) (DAG.delChild p v K.dag) from ⟨rfl, rfl⟩).andThen fun K => ⟨rfl, rfl⟩)
      (o.ord false (K.dag.parents v))
      { K with dag := { K.dag with nodes := K.dag.nodes.erase v }, pk := insert v K.pk }).andThen
      (f := fun K => forEach (fun K c => andThen (delParent c v K) (delNbr c v)) (o.ord true (K.dag.children v))
          { K with ck := insert v K.ck })
      (g := fun G => Model.forEach (fun G c => (DAG.delParent c v G).andThen (DAG.delNbr c v)) (o.ord true (G.children v)) G)
      (fun K => Sim.forEach (fun K c => (show Sim (delParent c v K) (DAG.delParent c v K.dag) from ⟨rfl, rfl⟩).andThen
        fun K => ⟨rfl, rfl⟩) _ _)).andThen
      (f := fun K =>
          (⟨{ K.dag with
              neighbors := Function.update K.dag.neighbors v ∅
              parents := Function.update K.dag.parents v ∅
              children := Function.update K.dag.children v ∅
              arcs := K.dag.arcs.filter fun a => a.1 ≠ v ∧ a.2 ≠ v }, K.pk.erase v, K.ck.erase v, K.nk.erase v⟩, none))
      (g := fun G =>
          ({ G with
              neighbors := Function.update G.neighbors v ∅
              parents := Function.update G.parents v ∅
              children := Function.update G.children v ∅
              arcs := G.arcs.filter fun a => a.1 ≠ v ∧ a.2 ≠ v }, none))
      fun K => ⟨rfl, rfl⟩
    unfold removeNode DAG.removeNode
    simp only [if_pos hv]
    cases ig with
    | false => exact h
    | true => exact ⟨h.1, rfl⟩
  · unfold removeNode DAG.removeNode
    simp only [if_neg hv]
    cases ig <;> exact ⟨rfl, rfl⟩

theorem sim_exec (w : DAG.Orders α) (vis : Finset α) (K : Keyed α) (op : DAG.Op α) :
    SimO (exec w vis K op) (op.exec w K.dag) := by
  cases op with
  | addNode v => exact ⟨rfl, rfl⟩
  | addArc check i j => exact sim_addArc ..
  | addArcsFrom check arcs => exact sim_addArcsFrom ..
  | removeArc ig i j => exact sim_removeArc ..
  | removeArcsFrom ig arcs => exact Sim.forEach (fun K a => sim_removeArc ig K a.1 a.2) arcs K
  | reverseArc ig check i j =>
    have h := sim_removeArc ig K i j
    show SimO (reverseArc ..) (DAG.reverseArc ..)
    unfold reverseArc DAG.reverseArc
    generalize removeArc ig K i j = r at h ⊢
    generalize DAG.removeArc ig K.dag i j = s at h ⊢
    obtain ⟨K1, e⟩ := r
    obtain ⟨G1, e'⟩ := s
    obtain ⟨rfl, rfl⟩ : K1.dag = G1 ∧ e = e' := h
    cases e with
    | none => exact sim_addArc ..
    | some e => exact ⟨rfl, rfl⟩
  | removeNode ig v => exact sim_removeNode ..

theorem SimO.some {a : Option (KStep α)} {b : Option (Step α)} (h : SimO a b) {K : Keyed α} {e} (ha : a = some (K, e)) :
    b = some (K.dag, e) := by
  subst ha
  cases b with
  | none => exact h.elim
  | some s => obtain ⟨G, e'⟩ := s; obtain ⟨rfl, rfl⟩ : K.dag = G ∧ e = e' := h; rfl

/-! ## The keys -/

/-- A missing key stands for the empty set. -/
structure Fresh (K : Keyed α) : Prop where
  p : ∀ v ∉ K.pk, K.dag.parents v = ∅
  c : ∀ v ∉ K.ck, K.dag.children v = ∅
  n : ∀ v ∉ K.nk, K.dag.neighbors v = ∅

/-- New keys are in `S`; the sets of children have not grown. -/
structure Within (S : Finset α) (K K' : Keyed α) : Prop where
  p : K'.pk ⊆ K.pk ∪ S
  c : K'.ck ⊆ K.ck ∪ S
  n : K'.nk ⊆ K.nk ∪ S
  sub : ∀ v, K'.dag.children v ⊆ K.dag.children v

theorem Within.refl (S : Finset α) (K : Keyed α) : Within S K K :=
  ⟨Finset.subset_union_left, Finset.subset_union_left, Finset.subset_union_left, fun _ => le_rfl⟩

theorem Within.trans {S : Finset α} {K K' K'' : Keyed α} (h : Within S K K') (h' : Within S K' K'') : Within S K K'' := by
  refine ⟨h'.p.trans ?_, h'.c.trans ?_, h'.n.trans ?_, fun v => (h'.sub v).trans (h.sub v)⟩
  · exact Finset.union_subset h.p Finset.subset_union_right
  · exact Finset.union_subset h.c Finset.subset_union_right
  · exact Finset.union_subset h.n Finset.subset_union_right

theorem Within.mono {S T : Finset α} {K K' : Keyed α} (h : Within S K K') (hT : S ⊆ T) : Within T K K' :=
  ⟨h.p.trans (Finset.union_subset_union_right hT), h.c.trans (Finset.union_subset_union_right hT),
    h.n.trans (Finset.union_subset_union_right hT), h.sub⟩

theorem insert_sub {S s : Finset α} {k : α} (hk : k ∈ S) : insert k s ⊆ s ∪ S :=
  Finset.insert_subset (Finset.mem_union_right _ hk) Finset.subset_union_left

theorem within_delParent {S : Finset α} {k : α} (hk : k ∈ S) (x : α) (K : Keyed α) : Within S K (delParent k x K).1 := by
  refine ⟨insert_sub hk, Finset.subset_union_left, Finset.subset_union_left, fun v => ?_⟩
  simp only [delParent, silent, DAG.delParent]
  split_ifs <;> exact le_rfl

theorem within_delChild {S : Finset α} {k : α} (hk : k ∈ S) (x : α) (K : Keyed α) : Within S K (delChild k x K).1 := by
  refine ⟨Finset.subset_union_left, insert_sub hk, Finset.subset_union_left, fun v => ?_⟩
  simp only [delChild, silent, DAG.delChild]
  split_ifs
  · by_cases h : v = k
    · subst h; simp only [Function.update_self]; exact Finset.erase_subset _ _
    · simp only [Function.update_of_ne h]; exact le_rfl
  · exact le_rfl

theorem within_delNbr {S : Finset α} {k : α} (hk : k ∈ S) (x : α) (K : Keyed α) : Within S K (delNbr k x K).1 := by
  refine ⟨Finset.subset_union_left, Finset.subset_union_left, insert_sub hk, fun v => ?_⟩
  simp only [delNbr, silent, DAG.delNbr]
  split_ifs <;> exact le_rfl

theorem within_andThen {S : Finset α} {K : Keyed α} {r : KStep α} (h : Within S K r.1) {f : Keyed α → KStep α}
    (hf : ∀ K, Within S K (f K).1) : Within S K (andThen r f).1 := by
  obtain ⟨K1, e⟩ := r
  cases e with
  | none => exact h.trans (hf K1)
  | some e => exact h

theorem within_forEach {S : Finset α} {β : Type u} {f : Keyed α → β → KStep α} : ∀ (l : List β) (_ : ∀ K, ∀ x ∈ l, Within S K (f K x).1)
    (K : Keyed α), Within S K (forEach f l K).1
  | [], _, K => .refl S K
  | x :: l, hf, K => within_andThen (hf K x (by simp)) (within_forEach l fun K y hy => hf K y (by simp [hy]))

theorem within_removeArc {S : Finset α} (ig : Bool) (K : Keyed α) {i j : α} (h : (i, j) ∈ K.dag.arcs → i ∈ S ∧ j ∈ S) :
    Within S K (removeArc ig K i j).1 := by
  by_cases hm : (i, j) ∈ K.dag.arcs
  · obtain ⟨hi, hj⟩ := h hm
    have h0 : Within S K (silent (DAG.delArc (i, j)) K).1 := by
      refine ⟨Finset.subset_union_left, Finset.subset_union_left, Finset.subset_union_left, fun v => ?_⟩
      simp only [silent, DAG.delArc]
      rw [if_pos hm]
    have := within_andThen (within_andThen (within_andThen (within_andThen h0 (f := delParent j i) fun K => within_delParent hj _ _)
      (f := delChild i j) fun K => within_delChild hi _ _) (f := delNbr j i) fun K => within_delNbr hj _ _)
      (f := delNbr i j) fun K => within_delNbr hi _ _
    unfold removeArc
    cases ig <;> exact this
  · have : (removeArc ig K i j).1 = K := by
      unfold removeArc silent DAG.delArc
      simp only [if_neg hm, andThen]
      cases ig <;> rfl
    rw [this]; exact .refl S K

/-! ## `Fresh` is kept -/

theorem Fresh.delParent {K : Keyed α} (h : Fresh K) (k x : α) : Fresh (delParent k x K).1 := by
  unfold Keyed.delParent silent DAG.delParent
  dsimp only
  split_ifs with hx
  · refine ⟨fun v hv => ?_, h.c, h.n⟩
    simp only [Finset.mem_insert, not_or] at hv
    simp only [Function.update_of_ne hv.1, h.p v hv.2]
  · exact ⟨fun v hv => h.p v fun h' => hv (Finset.mem_insert_of_mem h'), h.c, h.n⟩

theorem Fresh.delChild {K : Keyed α} (h : Fresh K) (k x : α) : Fresh (delChild k x K).1 := by
  unfold Keyed.delChild silent DAG.delChild
  dsimp only
  split_ifs with hx
  · refine ⟨h.p, fun v hv => ?_, h.n⟩
    simp only [Finset.mem_insert, not_or] at hv
    simp only [Function.update_of_ne hv.1, h.c v hv.2]
  · exact ⟨h.p, fun v hv => h.c v fun h' => hv (Finset.mem_insert_of_mem h'), h.n⟩

theorem Fresh.delNbr {K : Keyed α} (h : Fresh K) (k x : α) : Fresh (delNbr k x K).1 := by
  unfold Keyed.delNbr silent DAG.delNbr
  dsimp only
  split_ifs with hx
  · refine ⟨h.p, h.c, fun v hv => ?_⟩
    simp only [Finset.mem_insert, not_or] at hv
    simp only [Function.update_of_ne hv.1, h.n v hv.2]
  · exact ⟨h.p, h.c, fun v hv => h.n v fun h' => hv (Finset.mem_insert_of_mem h')⟩

theorem Fresh.andThen {r : KStep α} (h : Fresh r.1) {f : Keyed α → KStep α} (hf : ∀ K, Fresh K → Fresh (f K).1) :
    Fresh (Keyed.andThen r f).1 := by
  obtain ⟨K1, e⟩ := r
  cases e with
  | none => exact hf K1 h
  | some e => exact h

theorem Fresh.forEach {β : Type u} {f : Keyed α → β → KStep α} (hf : ∀ K x, Fresh K → Fresh (f K x).1) :
    ∀ (l : List β) (K : Keyed α), Fresh K → Fresh (Keyed.forEach f l K).1
  | [], _, h => h
  | x :: l, K, h => (hf K x h).andThen (Fresh.forEach hf l)

theorem Fresh.removeArc {K : Keyed α} (h : Fresh K) (ig : Bool) (i j : α) : Fresh (removeArc ig K i j).1 := by
  have h0 : Fresh (silent (DAG.delArc (i, j)) K).1 := by
    unfold silent DAG.delArc
    dsimp only
    split_ifs <;> exact ⟨h.p, h.c, h.n⟩
  have := (((h0.andThen (f := Keyed.delParent j i) fun K h => h.delParent _ _).andThen
    (f := Keyed.delChild i j) fun K h => h.delChild _ _).andThen (f := Keyed.delNbr j i) fun K h => h.delNbr _ _).andThen
    (f := Keyed.delNbr i j) fun K h => h.delNbr _ _
  unfold Keyed.removeArc
  cases ig <;> exact this

theorem Fresh.link {K : Keyed α} (h : Fresh K) (G : DAG α) (hp : G.parents = K.dag.parents) (hc : G.children = K.dag.children)
    (hn : G.neighbors = K.dag.neighbors) (i j : α) : Fresh { touchArc K i j with dag := DAG.link G i j } := by
  refine ⟨fun v hv => ?_, fun v hv => ?_, fun v hv => ?_⟩
  · simp only [touchArc, Finset.mem_insert, not_or] at hv
    simp only [DAG.link, Function.update_of_ne hv.1, hp, h.p v hv.2]
  · simp only [touchArc, Finset.mem_insert, not_or] at hv
    simp only [DAG.link, Function.update_of_ne hv.1, hc, h.c v hv.2]
  · simp only [touchArc, Finset.mem_insert, not_or] at hv
    simp only [DAG.link, Function.update_of_ne hv.1, Function.update_of_ne hv.2.1, hn, h.n v hv.2.2]

theorem Fresh.touchSort {K : Keyed α} (h : Fresh K) (vis : Finset α) : Fresh (touchSort vis K) :=
  ⟨h.p, fun v hv => h.c v fun h' => hv (Finset.mem_union_left _ h'), h.n⟩

theorem Fresh.addArc {K : Keyed α} (h : Fresh K) {check : Bool} {o : SetOrder (Option α) α} {vis : Finset α} {i j : α} {K' : Keyed α} {e}
    (hr : addArc check o vis K i j = some (K', e)) : Fresh K' := by
  have h1 : Fresh { touchArc K i j with dag := DAG.addArcUnchecked K.dag i j } := 
    h.link { K.dag with nodes := insert j (insert i K.dag.nodes), arcs := insert (i, j) K.dag.arcs } rfl rfl rfl i j
  unfold Keyed.addArc at hr
  cases check with
  | false => simp at hr; rw [← hr.1]; exact h1
  | true =>
    simp only [if_true] at hr
    split at hr
    · exact absurd hr (by simp)
    · simp at hr; rw [← hr.1]; exact h1.touchSort _
    · rename_i l _
      simp only [Option.some.injEq] at hr
      have := ((h1.touchSort vis).removeArc false i j).andThen (f := fun K2 => (K2, some (.cycle l))) fun K h => h
      rw [hr] at this; exact this
    · simp at hr; rw [← hr.1]; exact h1.touchSort _

theorem Fresh.addMany {K : Keyed α} (h : Fresh K) (l : List (α × α)) (G : DAG α) (hp : G.parents = K.dag.parents)
    (hc : G.children = K.dag.children) (hn : G.neighbors = K.dag.neighbors) :
    Fresh { l.foldl (fun K a => touchArc K a.1 a.2) K with dag := l.foldl (fun G a => DAG.link G a.1 a.2) G } := by
  induction l generalizing K G with
  | nil =>
    refine ⟨fun v hv => ?_, fun v hv => ?_, fun v hv => ?_⟩ <;> dsimp only [List.foldl_nil] at hv ⊢
    · rw [hp]; exact h.p v hv
    · rw [hc]; exact h.c v hv
    · rw [hn]; exact h.n v hv
  | cons a l ih =>
    have := ih (h.link G hp hc hn a.1 a.2) (DAG.link G a.1 a.2) rfl rfl rfl
    simp only [List.foldl_cons]
    have e : ∀ (l : List (α × α)) (K1 K2 : Keyed α), K1.pk = K2.pk → K1.ck = K2.ck → K1.nk = K2.nk →
        (l.foldl (fun K a => touchArc K a.1 a.2) K1).pk = (l.foldl (fun K a => touchArc K a.1 a.2) K2).pk ∧
        (l.foldl (fun K a => touchArc K a.1 a.2) K1).ck = (l.foldl (fun K a => touchArc K a.1 a.2) K2).ck ∧
        (l.foldl (fun K a => touchArc K a.1 a.2) K1).nk = (l.foldl (fun K a => touchArc K a.1 a.2) K2).nk := by
      intro l
      induction l with
      | nil => intro K1 K2 a b c; exact ⟨a, b, c⟩
      | cons x l ih => intro K1 K2 a b c; exact ih _ _ (by simp [touchArc, a]) (by simp [touchArc, b]) (by simp [touchArc, c])
    obtain ⟨e1, e2, e3⟩ := e l (touchArc K a.1 a.2) { touchArc K a.1 a.2 with dag := DAG.link G a.1 a.2 } rfl rfl rfl
    refine ⟨?_, ?_, ?_⟩
    · dsimp only; rw [e1]; exact this.p
    · dsimp only; rw [e2]; exact this.c
    · dsimp only; rw [e3]; exact this.n

theorem Fresh.addArcsFrom {K : Keyed α} (h : Fresh K) {check : Bool} {o : SetOrder (Option α) α} {oa : SetOrder Bool (α × α)}
    {vis : Finset α} {arcs : Finset (α × α)} {K' : Keyed α} {e} (hr : addArcsFrom check o oa vis K arcs = some (K', e)) : Fresh K' := by
  unfold Keyed.addArcsFrom at hr
  have h1 := h.addMany (oa.ord false arcs) { K.dag with
      nodes := K.dag.nodes ∪ ((oa.ord false arcs).map Prod.fst).toFinset ∪ ((oa.ord false arcs).map Prod.snd).toFinset
      arcs := K.dag.arcs ∪ (oa.ord false arcs).toFinset } rfl rfl rfl
  change Fresh { (oa.ord false arcs).foldl (fun K a => touchArc K a.1 a.2) K with
    dag := DAG.addArcsUnchecked K.dag (oa.ord false arcs) } at h1
  split_ifs at hr with hc hk
  · simp at hr; rw [← hr.1]; exact h
  · dsimp only at hr
    split at hr
    · exact absurd hr (by simp)
    · simp at hr; rw [← hr.1]; exact h1.touchSort _
    · rename_i l _
      simp only [Option.some.injEq] at hr
      have := (Fresh.forEach (fun K (a : α × α) h => h.removeArc false a.1 a.2) (oa.ord true arcs) _ (h1.touchSort vis)).andThen
        (f := fun K2 => (K2, some (.cycle l))) fun K h => h
      rw [hr] at this; exact this
    · simp at hr; rw [← hr.1]; exact h1.touchSort _
  · simp at hr; rw [← hr.1]; exact h1

theorem Fresh.removeNode {K : Keyed α} (h : Fresh K) (ig : Bool) (o : SetOrder Bool α) (v : α) : Fresh (removeNode ig o K v).1 := by
  by_cases hv : v ∈ K.dag.nodes
  · have h0 : Fresh { K with dag := { K.dag with nodes := K.dag.nodes.erase v }, pk := insert v K.pk } :=
      ⟨fun w hw => h.p w fun h' => hw (Finset.mem_insert_of_mem h'), h.c, h.n⟩
    have := ((Fresh.forEach (f := fun K p => Keyed.andThen (Keyed.delChild p v K) (Keyed.delNbr p v))
      (fun K p h => (h.delChild p v).andThen fun K h => h.delNbr p v) (o.ord false (K.dag.parents v)) _ h0).andThen
      (f := fun K => Keyed.forEach (fun K c => Keyed.andThen (Keyed.delParent c v K) (Keyed.delNbr c v)) (o.ord true (K.dag.children v))
          { K with ck := insert v K.ck })
      (fun K h => Fresh.forEach (fun K c h => (h.delParent c v).andThen fun K h => h.delNbr c v) _ _
        ⟨h.p, fun w hw => h.c w fun h' => hw (Finset.mem_insert_of_mem h'), h.n⟩)).andThen
      (f := fun K =>
          (⟨{ K.dag with
              neighbors := Function.update K.dag.neighbors v ∅
              parents := Function.update K.dag.parents v ∅
              children := Function.update K.dag.children v ∅
              arcs := K.dag.arcs.filter fun a => a.1 ≠ v ∧ a.2 ≠ v }, K.pk.erase v, K.ck.erase v, K.nk.erase v⟩, none))
      (fun K h => by
        have key : ∀ (f : α → Finset α) (s : Finset α), (∀ w ∉ s, f w = ∅) → ∀ w ∉ s.erase v, Function.update f v ∅ w = ∅ := by
          intro f s hs w hw
          by_cases e : w = v
          · subst e; simp
          · rw [Function.update_of_ne e]; exact hs w fun h' => hw (Finset.mem_erase.2 ⟨e, h'⟩)
        exact ⟨key _ _ h.p, key _ _ h.c, key _ _ h.n⟩)
    unfold Keyed.removeNode
    simp only [if_pos hv]
    cases ig <;> exact this
  · unfold Keyed.removeNode
    simp only [if_neg hv]
    cases ig <;> exact h

theorem Fresh.exec {K : Keyed α} (h : Fresh K) {w : DAG.Orders α} {vis : Finset α} {op : DAG.Op α} {K' : Keyed α} {e}
    (hr : exec w vis K op = some (K', e)) : Fresh K' := by
  cases op with
  | addNode v => simp only [Keyed.exec, silent, Option.some.injEq, Prod.mk.injEq] at hr; rw [← hr.1]; exact ⟨h.p, h.c, h.n⟩
  | addArc check i j => exact h.addArc hr
  | addArcsFrom check arcs => exact h.addArcsFrom hr
  | removeArc ig i j =>
    have := h.removeArc ig i j
    simp only [Keyed.exec, Option.some.injEq] at hr
    rw [hr] at this; exact this
  | removeArcsFrom ig arcs =>
    have := Fresh.forEach (fun K (a : α × α) h => h.removeArc ig a.1 a.2) arcs K h
    simp only [Keyed.exec, removeArcsFrom, Option.some.injEq] at hr
    rw [hr] at this; exact this
  | reverseArc ig check i j =>
    have h1 := h.removeArc ig i j
    simp only [Keyed.exec, reverseArc] at hr
    split at hr
    · rename_i K1 e1 heq
      rw [heq] at h1; simp at hr; rw [← hr.1]; exact h1
    · rename_i K1 heq
      rw [heq] at h1; exact Fresh.addArc h1 hr
  | removeNode ig v =>
    have := h.removeNode ig w.nbrs v
    simp only [Keyed.exec, Option.some.injEq] at hr
    rw [hr] at this; exact this

/-! ## The keys are nodes -/

/-- All keys are nodes. -/
structure Bound (K : Keyed α) : Prop where
  p : K.pk ⊆ K.dag.nodes
  c : K.ck ⊆ K.dag.nodes
  n : K.nk ⊆ K.dag.nodes

/-- The nodes are not changed. -/
def Keeps (K : Keyed α) (r : KStep α) : Prop := r.1.dag.nodes = K.dag.nodes

theorem keeps_andThen {K : Keyed α} {r : KStep α} (h : Keeps K r) {f : Keyed α → KStep α} (hf : ∀ K, Keeps K (f K)) :
    Keeps K (andThen r f) := by
  obtain ⟨K1, e⟩ := r
  cases e with
  | none => exact (hf K1).trans h
  | some e => exact h

theorem keeps_forEach {β : Type u} {f : Keyed α → β → KStep α} (hf : ∀ K x, Keeps K (f K x)) :
    ∀ (l : List β) (K : Keyed α), Keeps K (forEach f l K)
  | [], _ => rfl
  | x :: l, K => keeps_andThen (hf K x) (keeps_forEach hf l)

theorem keeps_delParent (k x : α) (K : Keyed α) : Keeps K (delParent k x K) := by
  unfold delParent silent DAG.delParent Keeps; dsimp only; split_ifs <;> rfl

theorem keeps_delChild (k x : α) (K : Keyed α) : Keeps K (delChild k x K) := by
  unfold delChild silent DAG.delChild Keeps; dsimp only; split_ifs <;> rfl

theorem keeps_delNbr (k x : α) (K : Keyed α) : Keeps K (delNbr k x K) := by
  unfold delNbr silent DAG.delNbr Keeps; dsimp only; split_ifs <;> rfl

theorem keeps_removeArc (ig : Bool) (K : Keyed α) (i j : α) : Keeps K (removeArc ig K i j) := by
  have h0 : Keeps K (silent (DAG.delArc (i, j)) K) := by
    unfold silent DAG.delArc Keeps; dsimp only; split_ifs <;> rfl
  have := keeps_andThen (keeps_andThen (keeps_andThen (keeps_andThen h0 (keeps_delParent j i)) (keeps_delChild i j))
    (keeps_delNbr j i)) (keeps_delNbr i j)
  unfold removeArc
  cases ig <;> exact this

theorem Bound.within {K K' : Keyed α} (h : Bound K) (hw : Within K.dag.nodes K K') (hn : K'.dag.nodes = K.dag.nodes) : Bound K' := by
  refine ⟨?_, ?_, ?_⟩ <;> rw [hn]
  · exact hw.p.trans (Finset.union_subset h.p le_rfl)
  · exact hw.c.trans (Finset.union_subset h.c le_rfl)
  · exact hw.n.trans (Finset.union_subset h.n le_rfl)

theorem Bound.touchSort {K : Keyed α} (h : Bound K) (vis : Finset α) : Bound (touchSort vis K) :=
  ⟨h.p, Finset.union_subset h.c Finset.inter_subset_right, h.n⟩

/-- The arcs join nodes. -/
def Inside (G : DAG α) : Prop := ∀ i j, (i, j) ∈ G.arcs → i ∈ G.nodes ∧ j ∈ G.nodes

theorem removeArc_arcs_sub (ig : Bool) (K : Keyed α) (i j : α) : (removeArc ig K i j).1.dag.arcs ⊆ K.dag.arcs := by
  have key : ∀ (r : KStep α) (f : Keyed α → KStep α), r.1.dag.arcs ⊆ K.dag.arcs → (∀ K, (f K).1.dag.arcs = K.dag.arcs) →
      (andThen r f).1.dag.arcs ⊆ K.dag.arcs := by
    intro r f h hf
    obtain ⟨K1, e⟩ := r
    cases e with
    | none => exact (hf K1).le.trans h
    | some e => exact h
  have h0 : (silent (DAG.delArc (i, j)) K).1.dag.arcs ⊆ K.dag.arcs := by
    unfold silent DAG.delArc; dsimp only; split_ifs
    · exact Finset.erase_subset _ _
    · exact le_rfl
  have := key _ (delNbr i j) (key _ (delNbr j i) (key _ (delChild i j) (key _ (delParent j i) h0 ?_) ?_) ?_) ?_
  · unfold removeArc
    cases ig <;> exact this
  all_goals intro K
  · unfold delParent silent DAG.delParent; dsimp only; split_ifs <;> rfl
  · unfold delChild silent DAG.delChild; dsimp only; split_ifs <;> rfl
  · unfold delNbr silent DAG.delNbr; dsimp only; split_ifs <;> rfl
  · unfold delNbr silent DAG.delNbr; dsimp only; split_ifs <;> rfl

theorem Bound.removeArc {K : Keyed α} (h : Bound K) (hi : Inside K.dag) (ig : Bool) (i j : α) :
    Bound (removeArc ig K i j).1 ∧ Inside (removeArc ig K i j).1.dag := by
  refine ⟨h.within (within_removeArc ig K (hi i j)) (keeps_removeArc ig K i j), fun a b hab => ?_⟩
  rw [keeps_removeArc ig K i j]
  exact hi a b (removeArc_arcs_sub ig K i j hab)

theorem Bound.removeArcs {ig : Bool} : ∀ (l : List (α × α)) {K : Keyed α}, Bound K → Inside K.dag →
    Bound (forEach (fun K (a : α × α) => Keyed.removeArc ig K a.1 a.2) l K).1
  | [], _, h, _ => h
  | x :: l, K, h, hi => by
    obtain ⟨h1, h2⟩ := h.removeArc hi ig x.1 x.2
    rw [forEach]
    generalize Keyed.removeArc ig K x.1 x.2 = r at h1 h2
    obtain ⟨K1, e⟩ := r
    cases e with
    | none => exact Bound.removeArcs l h1 h2
    | some e => exact h1

theorem andThen_raise (r : KStep α) (x : Exn α) : (andThen r fun K => (K, some x)).1 = r.1 := by
  obtain ⟨K1, e⟩ := r
  cases e <;> rfl

theorem Bound.addArc {K : Keyed α} (h : Bound K) (hi : Inside K.dag) {check : Bool} {o : SetOrder (Option α) α} {vis : Finset α} {i j : α}
    {K' : Keyed α} {e} (hr : addArc check o vis K i j = some (K', e)) : Bound K' := by
  have hn : (DAG.addArcUnchecked K.dag i j).nodes = insert j (insert i K.dag.nodes) := rfl
  have ha : (DAG.addArcUnchecked K.dag i j).arcs = insert (i, j) K.dag.arcs := rfl
  have h1 : Bound { touchArc K i j with dag := DAG.addArcUnchecked K.dag i j } := by
    refine ⟨?_, ?_, ?_⟩ <;> intro v hv <;> simp only [touchArc, Finset.mem_insert] at hv ⊢ <;> rw [hn] <;>
      simp only [Finset.mem_insert]
    · rcases hv with hv | hv
      · exact .inl hv
      · exact .inr (.inr (h.p hv))
    · rcases hv with hv | hv
      · exact .inr (.inl hv)
      · exact .inr (.inr (h.c hv))
    · rcases hv with hv | hv | hv
      · exact .inl hv
      · exact .inr (.inl hv)
      · exact .inr (.inr (h.n hv))
  have hi1 : Inside (DAG.addArcUnchecked K.dag i j) := by
    intro a b hab
    rw [ha] at hab
    rw [hn]
    simp only [Finset.mem_insert, Prod.mk.injEq] at hab ⊢
    rcases hab with ⟨rfl, rfl⟩ | hab
    · simp
    · exact ⟨.inr (.inr (hi a b hab).1), .inr (.inr (hi a b hab).2)⟩
  unfold Keyed.addArc at hr
  cases check with
  | false => simp at hr; rw [← hr.1]; exact h1
  | true =>
    simp only [if_true] at hr
    split at hr
    · exact absurd hr (by simp)
    · simp at hr; rw [← hr.1]; exact h1.touchSort _
    · rename_i l _
      simp only [Option.some.injEq] at hr
      have := (Bound.removeArc (h1.touchSort vis) hi1 false i j).1
      rw [← andThen_raise _ (.cycle l), hr] at this; exact this
    · simp at hr; rw [← hr.1]; exact h1.touchSort _

theorem foldl_touch (N : Finset α) (l : List (α × α)) (hl : ∀ a ∈ l, a.1 ∈ N ∧ a.2 ∈ N) (K : Keyed α) (hp : K.pk ⊆ N) (hc : K.ck ⊆ N)
    (hn : K.nk ⊆ N) : (l.foldl (fun K a => touchArc K a.1 a.2) K).pk ⊆ N ∧ (l.foldl (fun K a => touchArc K a.1 a.2) K).ck ⊆ N ∧
      (l.foldl (fun K a => touchArc K a.1 a.2) K).nk ⊆ N := by
  induction l generalizing K with
  | nil => exact ⟨hp, hc, hn⟩
  | cons a l ih =>
    obtain ⟨h1, h2⟩ := hl a (by simp)
    exact ih (fun b hb => hl b (by simp [hb])) _ (Finset.insert_subset h2 hp) (Finset.insert_subset h1 hc)
      (Finset.insert_subset h2 (Finset.insert_subset h1 hn))

theorem Bound.addArcsFrom {K : Keyed α} (h : Bound K) (hi : Inside K.dag) {check : Bool} {o : SetOrder (Option α) α}
    {oa : SetOrder Bool (α × α)} {vis : Finset α} {arcs : Finset (α × α)} {K' : Keyed α} {e}
    (hr : addArcsFrom check o oa vis K arcs = some (K', e)) : Bound K' := by
  have hlink : ∀ (l : List (α × α)) (G : DAG α), (l.foldl (fun G a => DAG.link G a.1 a.2) G).nodes = G.nodes ∧
      (l.foldl (fun G a => DAG.link G a.1 a.2) G).arcs = G.arcs := by
    intro l
    induction l with
    | nil => intro G; exact ⟨rfl, rfl⟩
    | cons a l ih => intro G; exact ih (DAG.link G a.1 a.2)
  have hn : (DAG.addArcsUnchecked K.dag (oa.ord false arcs)).nodes =
      K.dag.nodes ∪ ((oa.ord false arcs).map Prod.fst).toFinset ∪ ((oa.ord false arcs).map Prod.snd).toFinset := (hlink _ _).1
  have ha : (DAG.addArcsUnchecked K.dag (oa.ord false arcs)).arcs = K.dag.arcs ∪ (oa.ord false arcs).toFinset := (hlink _ _).2
  have hmem : ∀ a ∈ oa.ord false arcs, a.1 ∈ (DAG.addArcsUnchecked K.dag (oa.ord false arcs)).nodes ∧
      a.2 ∈ (DAG.addArcsUnchecked K.dag (oa.ord false arcs)).nodes := by
    intro a hl
    rw [hn]
    refine ⟨Finset.mem_union_left _ (Finset.mem_union_right _ ?_), Finset.mem_union_right _ ?_⟩
    · rw [List.mem_toFinset]; exact List.mem_map_of_mem hl
    · rw [List.mem_toFinset]; exact List.mem_map_of_mem hl
  have hsub : K.dag.nodes ⊆ (DAG.addArcsUnchecked K.dag (oa.ord false arcs)).nodes := by
    rw [hn, Finset.union_assoc]; exact Finset.subset_union_left
  obtain ⟨k1, k2, k3⟩ := foldl_touch _ _ hmem K (h.p.trans hsub) (h.c.trans hsub) (h.n.trans hsub)
  have h1 : Bound { (oa.ord false arcs).foldl (fun K a => touchArc K a.1 a.2) K with
    dag := DAG.addArcsUnchecked K.dag (oa.ord false arcs) } := ⟨k1, k2, k3⟩
  have hi1 : Inside (DAG.addArcsUnchecked K.dag (oa.ord false arcs)) := by
    intro a b hab
    rw [ha, Finset.mem_union, List.mem_toFinset] at hab
    rcases hab with hab | hab
    · exact ⟨hsub (hi a b hab).1, hsub (hi a b hab).2⟩
    · exact hmem _ hab
  unfold Keyed.addArcsFrom at hr
  split_ifs at hr with hc hk
  · simp at hr; rw [← hr.1]; exact h
  · dsimp only at hr
    split at hr
    · exact absurd hr (by simp)
    · simp at hr; rw [← hr.1]; exact h1.touchSort _
    · rename_i l _
      simp only [Option.some.injEq] at hr
      have := Bound.removeArcs (ig := false) (oa.ord true arcs) (h1.touchSort vis) hi1
      rw [← andThen_raise _ (.cycle l), hr] at this; exact this
    · simp at hr; rw [← hr.1]; exact h1.touchSort _
  · simp at hr; rw [← hr.1]; exact h1

theorem Bound.removeNode {K : Keyed α} (h : Bound K) (hG : K.dag.Consistent) (hA : K.dag.Asym) (ig : Bool) (o : SetOrder Bool α) (v : α) :
    Bound (removeNode ig o K v).1 := by
  by_cases hv : v ∈ K.dag.nodes
  · obtain ⟨G', e1, -, e3, -⟩ := DAG.removeNode_spec hG hA ig o hv
    have hs := sim_removeNode ig o K v
    rw [e1] at hs
    have hok : (Keyed.removeNode ig o K v).1.dag.nodes = K.dag.nodes.erase v := by rw [hs.1]; exact e3
    -- the run before the keys are popped
    let K0 : Keyed α := { K with dag := { K.dag with nodes := K.dag.nodes.erase v }, pk := insert v K.pk }
    let r1 := forEach (fun K p => andThen (delChild p v K) (delNbr p v)) (o.ord false (K0.dag.parents v)) K0
    let r2 := andThen r1 (fun K => forEach (fun K c => andThen (delParent c v K) (delNbr c v)) (o.ord true (K.dag.children v))
          { K with ck := insert v K.ck })
    have w1 : Within K.dag.nodes K0 r1.1 := within_forEach _ (fun K' p hp => by
      have hp' : p ∈ K.dag.nodes := by
        rw [o.mem_iff] at hp
        exact hG.fst_mem _ _ ((hG.parents_iff _ _).1 hp)
      exact within_andThen (within_delChild hp' _ _) fun K => within_delNbr hp' _ _) K0
    have w2 : Within K.dag.nodes K0 r2.1 := by
      show Within K.dag.nodes K0 (andThen r1 _).1
      generalize r1 = r at w1
      obtain ⟨K1, e⟩ := r
      cases e with
      | some e => exact w1
      | none =>
        have w1' : Within K.dag.nodes K0 { K1 with ck := insert v K1.ck } := by
          refine ⟨w1.p, ?_, w1.n, w1.sub⟩
          exact Finset.insert_subset (Finset.mem_union_right _ hv) w1.c
        refine w1'.trans (within_forEach _ (fun K' c hc => ?_) _)
        have hc' : c ∈ K.dag.nodes := by
          rw [o.mem_iff] at hc
          exact hG.snd_mem _ _ ((hG.children_iff _ _).1 (w1.sub v hc))
        exact within_andThen (within_delParent hc' _ _) fun K => within_delNbr hc' _ _
    have hkeys : (Keyed.removeNode ig o K v).1.pk = r2.1.pk.erase v ∧ (Keyed.removeNode ig o K v).1.ck = r2.1.ck.erase v ∧
        (Keyed.removeNode ig o K v).1.nk = r2.1.nk.erase v := by
      -- nothing was raised
      have hs2 := sim_removeNode false o K v
      obtain ⟨G2, f1, -⟩ := DAG.removeNode_spec hG hA false o hv
      rw [f1] at hs2
      have e2 : Keyed.removeNode false o K v = andThen r2 (fun K =>
          (⟨{ K.dag with
              neighbors := Function.update K.dag.neighbors v ∅
              parents := Function.update K.dag.parents v ∅
              children := Function.update K.dag.children v ∅
              arcs := K.dag.arcs.filter fun a => a.1 ≠ v ∧ a.2 ≠ v }, K.pk.erase v, K.ck.erase v, K.nk.erase v⟩, none)) := by
        unfold Keyed.removeNode
        simp only [if_pos hv]
        rfl
      have e1' : (Keyed.removeNode ig o K v).1 = (Keyed.removeNode false o K v).1 := by
        unfold Keyed.removeNode
        cases ig <;> rfl
      rw [e1', e2]
      have hnone := hs2.2
      rw [e2] at hnone
      generalize r2 = r at hnone ⊢
      obtain ⟨K2, e⟩ := r
      cases e with
      | none => exact ⟨rfl, rfl, rfl⟩
      | some e => exact absurd hnone (by simp [andThen])
    have fin : ∀ s t : Finset α, s ⊆ t ∪ K.dag.nodes → t ⊆ K.dag.nodes → s.erase v ⊆ K.dag.nodes.erase v := by
      intro s t hs ht
      exact Finset.erase_subset_erase _ (hs.trans (Finset.union_subset ht le_rfl))
    obtain ⟨k1, k2, k3⟩ := hkeys
    refine ⟨?_, ?_, ?_⟩ <;> rw [hok]
    · rw [k1]; exact fin _ _ w2.p (Finset.insert_subset hv h.p)
    · rw [k2]; exact fin _ _ w2.c h.c
    · rw [k3]; exact fin _ _ w2.n h.n
  · have : (Keyed.removeNode ig o K v).1 = K := by
      unfold Keyed.removeNode
      simp only [if_neg hv]
      cases ig <;> rfl
    rw [this]; exact h

theorem Bound.exec {K : Keyed α} (h : Bound K) (hG : K.dag.Consistent) (hA : K.dag.Asym) {w : DAG.Orders α} {vis : Finset α}
    {op : DAG.Op α} {K' : Keyed α} {e} (hr : exec w vis K op = some (K', e)) : Bound K' := by
  have hi : Inside K.dag := fun i j hij => ⟨hG.fst_mem i j hij, hG.snd_mem i j hij⟩
  cases op with
  | addNode v =>
    simp only [Keyed.exec, silent, Option.some.injEq, Prod.mk.injEq] at hr
    rw [← hr.1]
    exact ⟨h.p.trans (Finset.subset_insert _ _), h.c.trans (Finset.subset_insert _ _), h.n.trans (Finset.subset_insert _ _)⟩
  | addArc check i j => exact h.addArc hi hr
  | addArcsFrom check arcs => exact h.addArcsFrom hi hr
  | removeArc ig i j =>
    have := (h.removeArc hi ig i j).1
    simp only [Keyed.exec, Option.some.injEq] at hr
    rw [hr] at this; exact this
  | removeArcsFrom ig arcs =>
    have := Bound.removeArcs (ig := ig) arcs h hi
    simp only [Keyed.exec, removeArcsFrom, Option.some.injEq] at hr
    rw [hr] at this; exact this
  | reverseArc ig check i j =>
    obtain ⟨h1, h2⟩ := h.removeArc hi ig i j
    simp only [Keyed.exec, reverseArc] at hr
    split at hr
    · rename_i K1 e1 heq
      rw [heq] at h1; simp at hr; rw [← hr.1]; exact h1
    · rename_i K1 heq
      rw [heq] at h1 h2; exact Bound.addArc h1 h2 hr
  | removeNode ig v =>
    have := h.removeNode hG hA ig w.nbrs v
    simp only [Keyed.exec, Option.some.injEq] at hr
    rw [hr] at this; exact this

end Model.Keyed
