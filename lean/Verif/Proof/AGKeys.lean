import Verif.Model.AGKeys
import Verif.Proof.AGNew

/-! # The keys of `_adjacent` -/

namespace Model.AKeyed

universe u
variable {α : Type u} [DecidableEq α]

/-- Forgetting the keys. -/
def base (r : Step α) : AG.Step α := (r.1.ag, r.2)

omit [DecidableEq α] in
theorem base_andThen {r : Step α} {f : AKeyed α → Step α} {r' : AG.Step α} {g : AG α → AG.Step α} (hr : base r = r')
    (hf : ∀ K, base (f K) = g K.ag) : base (andThen r f) = r'.andThen g := by
  subst hr
  rcases r with ⟨K, _ | e⟩
  · exact hf K
  · rfl

omit [DecidableEq α] in
theorem base_forEach {β : Type u} {body : AKeyed α → β → Step α} {g : AG α → β → AG.Step α} (h : ∀ K x, base (body K x) = g K.ag x)
    (l : List β) (K : AKeyed α) : base (forEach body l K) = AG.forEach g l K.ag := by
  induction l generalizing K with
  | nil => rfl
  | cons x l ih => exact base_andThen (h K x) ih

omit [DecidableEq α] in
theorem base_guard {ig : Bool} {r : Step α} {r' : AG.Step α} (h : base r = r') : base (guard ig r) = AG.guard ig r' := by
  subst h
  cases ig <;> rfl

theorem base_new (o : SetOrder (Fin 3) (α × α)) (nodes : Finset α) (d b u : Finset (α × α)) :
    base (new o nodes d b u) = AG.new o nodes d b u :=
  base_andThen (base_andThen (base_forEach (fun _ _ => rfl) _ _) fun _ => base_forEach (fun _ _ => rfl) _ _)
    fun _ => base_forEach (fun _ _ => rfl) _ _

theorem base_removeDirected (ig : Bool) (K : AKeyed α) (i j : α) : base (K.removeDirected ig i j) = K.ag.removeDirected ig i j :=
  base_guard (base_andThen (base_andThen (base_andThen (base_andThen rfl fun _ => rfl) fun _ => rfl) fun _ => rfl) fun _ => rfl)

theorem base_removeBidirected (ig : Bool) (K : AKeyed α) (i j : α) : base (K.removeBidirected ig i j) = K.ag.removeBidirected ig i j :=
  base_guard (base_andThen (base_andThen (base_andThen (base_andThen rfl fun _ => rfl) fun _ => rfl) fun _ => rfl) fun _ => rfl)

theorem base_removeUndirected (ig : Bool) (K : AKeyed α) (i j : α) : base (K.removeUndirected ig i j) = K.ag.removeUndirected ig i j :=
  base_guard (base_andThen (base_andThen (base_andThen (base_andThen rfl fun _ => rfl) fun _ => rfl) fun _ => rfl) fun _ => rfl)

theorem base_removeEdge (ig : Bool) (K : AKeyed α) (i j : α) : base (K.removeEdge ig i j) = K.ag.removeEdge ig i j := by
  unfold removeEdge AG.removeEdge
  split_ifs
  · exact base_removeBidirected ..
  · exact base_removeDirected ..
  · exact base_removeDirected ..
  · exact base_removeUndirected ..
  · rfl
  · rfl

theorem base_addDirected (o os : SetOrder (Option α) α) (K : AKeyed α) (i j : α) :
    (K.addDirected o os i j).map base = K.ag.addDirected o os i j := by
  unfold addDirected AG.addDirected
  have h : base (K.addDirectedRaw i j) = K.ag.addDirectedRaw i j := rfl
  rw [← h]
  rcases K.addDirectedRaw i j with ⟨K1, _ | e⟩
  · simp only [base]
    rcases (AG.topologicalSort K1.ag o os).run with _ | (e | l)
    · rfl
    · cases e <;> first | rfl | skip
      exact congrArg some (base_andThen (base_removeDirected false K1 i j) fun _ => rfl)
    · rfl
  · rfl

/-! ## Which keys are there -/

/-- No key is lost. -/
def Grows (f : AKeyed α → Step α) : Prop := ∀ K, K.keys ⊆ (f K).1.keys

omit [DecidableEq α] in
theorem Grows.andThen {f g : AKeyed α → Step α} (hf : Grows f) (hg : Grows g) : Grows fun K => andThen (f K) g := by
  intro K
  have h1 := hf K
  beta_reduce
  unfold AKeyed.andThen
  rcases e : f K with ⟨K1, _ | x⟩ <;> rw [e] at h1
  · exact fun x hx => hg K1 (h1 hx)
  · exact h1

omit [DecidableEq α] in
theorem grows_forEach {β : Type u} {body : AKeyed α → β → Step α} (h : ∀ x, Grows fun K => body K x) (l : List β) :
    Grows (forEach body l) := by
  induction l with
  | nil => exact fun _ => le_rfl
  | cons x l ih => exact Grows.andThen (h x) ih

omit [DecidableEq α] in
theorem grows_silent (f : AG α → AG.Step α) : Grows (silent f) := fun _ => le_rfl

theorem grows_delAdj (k x : α) : Grows (delAdj k x) := fun _ => Finset.subset_insert _ _

/-- Every node with an adjacency has a key. -/
def Inv (K : AKeyed α) : Prop := ∀ v, (K.ag.adjacent v).Nonempty → v ∈ K.keys

/-- The invariant is kept. -/
def Keeps (f : AKeyed α → Step α) : Prop := ∀ K, Inv K → Inv (f K).1

omit [DecidableEq α] in
theorem Keeps.andThen {f g : AKeyed α → Step α} (hf : Keeps f) (hg : Keeps g) : Keeps fun K => andThen (f K) g := by
  intro K hK
  have h1 := hf K hK
  beta_reduce
  unfold AKeyed.andThen
  rcases e : f K with ⟨K1, _ | x⟩ <;> rw [e] at h1
  · exact hg K1 h1
  · exact h1

omit [DecidableEq α] in
theorem keeps_forEach {β : Type u} {body : AKeyed α → β → Step α} (h : ∀ x, Keeps fun K => body K x) (l : List β) :
    Keeps (forEach body l) := by
  induction l with
  | nil => exact fun _ h => h
  | cons x l ih => exact Keeps.andThen (h x) ih

omit [DecidableEq α] in
theorem keeps_silent {f : AG α → AG.Step α} (h : ∀ A, (f A).1.adjacent = A.adjacent) : Keeps (silent f) := by
  intro K hK v hv
  simp only [silent, h] at hv ⊢
  exact hK v hv

theorem keeps_delAdj (k x : α) : Keeps (delAdj k x) := by
  intro K hK v hv
  simp only [delAdj, AG.delAdj] at hv ⊢
  refine Finset.mem_insert_of_mem (hK v ?_)
  split_ifs at hv with h
  · obtain ⟨y, hy⟩ := hv
    exact ⟨y, (mem_delAt.1 hy).1⟩
  · exact hv

omit [DecidableEq α] in
theorem keeps_guard {f : AKeyed α → Step α} (h : Keeps f) (ig : Bool) : Keeps fun K => guard ig (f K) := by
  intro K hK
  beta_reduce
  unfold guard
  split_ifs <;> exact h K hK

theorem adj_delDirected (a : α × α) (A : AG α) : (A.delDirected a).1.adjacent = A.adjacent := by
  unfold AG.delDirected; split_ifs <;> rfl
theorem adj_delBidirected (e : Finset α) (A : AG α) : (A.delBidirected e).1.adjacent = A.adjacent := by
  unfold AG.delBidirected; split_ifs <;> rfl
theorem adj_delUndirected (e : Finset α) (A : AG α) : (A.delUndirected e).1.adjacent = A.adjacent := by
  unfold AG.delUndirected; split_ifs <;> rfl
theorem adj_delParent (k x : α) (A : AG α) : (A.delParent k x).1.adjacent = A.adjacent := by
  unfold AG.delParent; split_ifs <;> rfl
theorem adj_delChild (k x : α) (A : AG α) : (A.delChild k x).1.adjacent = A.adjacent := by
  unfold AG.delChild; split_ifs <;> rfl
theorem adj_delSpouse (k x : α) (A : AG α) : (A.delSpouse k x).1.adjacent = A.adjacent := by
  unfold AG.delSpouse; split_ifs <;> rfl
theorem adj_delNbr (k x : α) (A : AG α) : (A.delNbr k x).1.adjacent = A.adjacent := by
  unfold AG.delNbr; split_ifs <;> rfl

theorem keeps_removeDirected (ig : Bool) (i j : α) : Keeps fun K => K.removeDirected ig i j :=
  keeps_guard ((((keeps_silent (adj_delDirected (i, j))).andThen (keeps_silent (adj_delChild i j))).andThen
    (keeps_silent (adj_delParent j i))).andThen (keeps_delAdj i j) |>.andThen (keeps_delAdj j i)) ig

theorem keeps_removeBidirected (ig : Bool) (i j : α) : Keeps fun K => K.removeBidirected ig i j :=
  keeps_guard ((((keeps_silent (adj_delBidirected {i, j})).andThen (keeps_silent (adj_delSpouse i j))).andThen
    (keeps_silent (adj_delSpouse j i))).andThen (keeps_delAdj i j) |>.andThen (keeps_delAdj j i)) ig

theorem keeps_removeUndirected (ig : Bool) (i j : α) : Keeps fun K => K.removeUndirected ig i j :=
  keeps_guard ((((keeps_silent (adj_delUndirected {i, j})).andThen (keeps_silent (adj_delNbr i j))).andThen
    (keeps_silent (adj_delNbr j i))).andThen (keeps_delAdj i j) |>.andThen (keeps_delAdj j i)) ig

theorem keeps_removeEdge (ig : Bool) (i j : α) : Keeps fun K => K.removeEdge ig i j := by
  intro K hK
  beta_reduce
  unfold removeEdge
  split_ifs
  · exact keeps_removeBidirected _ _ _ K hK
  · exact keeps_removeDirected _ _ _ K hK
  · exact keeps_removeDirected _ _ _ K hK
  · exact keeps_removeUndirected _ _ _ K hK
  · exact hK
  · exact hK

theorem keeps_removeEdges (ig : Bool) (l : List (α × α)) : Keeps fun K => K.removeEdges ig l := by
  unfold removeEdges
  exact keeps_forEach (body := fun K (e : α × α) => K.removeEdge ig e.1 e.2) (fun a => keeps_removeEdge ig a.1 a.2) l

/-- Exactly the nodes with an adjacency have a key. -/
def Tight (K : AKeyed α) : Prop := ∀ v, v ∈ K.keys ↔ (K.ag.adjacent v).Nonempty

theorem adj_two {d : α → Finset α} {i j v : α} : (addAt (addAt d i j) j i v).Nonempty ↔ v = j ∨ v = i ∨ (d v).Nonempty := by
  constructor
  · rintro ⟨x, hx⟩
    rcases mem_addAt.1 hx with hx | ⟨rfl, -⟩
    · rcases mem_addAt.1 hx with hx | ⟨rfl, -⟩
      · exact Or.inr (Or.inr ⟨x, hx⟩)
      · exact Or.inr (Or.inl rfl)
    · exact Or.inl rfl
  · rintro (rfl | rfl | ⟨x, hx⟩)
    · exact ⟨i, mem_addAt.2 (Or.inr ⟨rfl, rfl⟩)⟩
    · exact ⟨j, mem_addAt.2 (Or.inl (mem_addAt.2 (Or.inr ⟨rfl, rfl⟩)))⟩
    · exact ⟨x, mem_addAt.2 (Or.inl (mem_addAt.2 (Or.inl hx)))⟩

theorem tight_insert {K : AKeyed α} (h : Tight K) {i j : α} (hij : i ∈ K.ag.adjacent j) (v : α) :
    v ∈ insert j K.keys ↔ (K.ag.adjacent v).Nonempty := by
  rw [Finset.mem_insert, h v]
  exact ⟨fun hv => hv.elim (fun e => e ▸ ⟨i, hij⟩) id, Or.inr⟩

theorem tight_addDirectedRaw {K : AKeyed α} (h : Tight K) (i j : α) : Tight (K.addDirectedRaw i j).1 := by
  intro v
  simp only [addDirectedRaw, AG.addDirectedRaw]
  split_ifs with h1 h2 h3
  · exact h v
  · exact h v
  · exact tight_insert h h3 v
  · simp only [Finset.mem_insert, adj_two, h v]

theorem tight_addBidirectedRaw {K : AKeyed α} (h : Tight K) (i j : α) : Tight (K.addBidirectedRaw i j).1 := by
  intro v
  simp only [addBidirectedRaw, AG.addBidirectedRaw]
  split_ifs with h1 h2 h3 h4
  · exact h v
  · exact h v
  · exact h v
  · exact tight_insert h h4 v
  · simp only [Finset.mem_insert, adj_two, h v]

theorem tight_addUndirected {K : AKeyed α} (h : Tight K) (i j : α) : Tight (K.addUndirected i j).1 := by
  intro v
  simp only [addUndirected, AG.addUndirected]
  split_ifs with h1 h2 h3 h4 h5 h6
  · exact h v
  · exact h v
  · exact h v
  · exact h v
  · exact h v
  · exact tight_insert h h6 v
  · simp only [Finset.mem_insert, adj_two, h v]

omit [DecidableEq α] in
theorem tight_forEach {β : Type u} {body : AKeyed α → β → Step α} (hb : ∀ K x, Tight K → Tight (body K x).1) (l : List β) (K : AKeyed α)
    (h : Tight K) : Tight (forEach body l K).1 := by
  induction l generalizing K with
  | nil => exact h
  | cons x l ih =>
    have h1 := hb K x h
    simp only [forEach, andThen]
    rcases e : body K x with ⟨K1, _ | y⟩ <;> rw [e] at h1
    · exact ih K1 h1
    · exact h1

omit [DecidableEq α] in
theorem tight_andThen {r : Step α} {f : AKeyed α → Step α} (h : Tight r.1) (hf : ∀ K, Tight K → Tight (f K).1) : Tight (andThen r f).1 := by
  rcases r with ⟨K, _ | e⟩
  · exact hf K h
  · exact h

theorem tight_new (o : SetOrder (Fin 3) (α × α)) (nodes : Finset α) (d b u : Finset (α × α)) : Tight (new o nodes d b u).1 := by
  refine tight_andThen (tight_andThen (tight_forEach (fun K e h => tight_addDirectedRaw h _ _) _ _ ?_) fun K h => ?_) fun K h => ?_
  · intro v
    simp [AG.empty]
  · exact tight_forEach (fun K e h => tight_addBidirectedRaw h _ _) _ _ h
  · exact tight_forEach (fun K e h => tight_addUndirected h _ _) _ _ h

/-- The additions keep the invariant. -/
theorem keeps_addDirectedRaw (i j : α) : Keeps fun K => K.addDirectedRaw i j := by
  intro K h v
  simp only [addDirectedRaw, AG.addDirectedRaw]
  split_ifs with h1 h2 h3
  · exact h v
  · exact h v
  · exact fun hv => Finset.mem_insert_of_mem (h v hv)
  · simp only [Finset.mem_insert, adj_two]
    exact fun hv => hv.imp id (Or.imp id (h v))

theorem keeps_addBidirectedRaw (i j : α) : Keeps fun K => K.addBidirectedRaw i j := by
  intro K h v
  simp only [addBidirectedRaw, AG.addBidirectedRaw]
  split_ifs with h1 h2 h3 h4
  · exact h v
  · exact h v
  · exact h v
  · exact fun hv => Finset.mem_insert_of_mem (h v hv)
  · simp only [Finset.mem_insert, adj_two]
    exact fun hv => hv.imp id (Or.imp id (h v))

theorem keeps_addUndirected (i j : α) : Keeps fun K => K.addUndirected i j := by
  intro K h v
  simp only [addUndirected, AG.addUndirected]
  split_ifs with h1 h2 h3 h4 h5 h6
  · exact h v
  · exact h v
  · exact h v
  · exact h v
  · exact h v
  · exact fun hv => Finset.mem_insert_of_mem (h v hv)
  · simp only [Finset.mem_insert, adj_two]
    exact fun hv => hv.imp id (Or.imp id (h v))

/-! ## `remove_node` -/

/-- The loops of `remove_node`, with the orders fixed beforehand. -/
def loops (o : SetOrder (Fin 4) α) (v : α) (K : AKeyed α) : Step α :=
  andThen (andThen (andThen
    (forEach (fun K p => andThen (andThen (silent (AG.delChild p v) K) (delAdj p v)) (silent (AG.delDirected (p, v))))
      (o.ord 0 (K.ag.parents v)) ⟨{ K.ag with nodes := K.ag.nodes.erase v }, K.keys⟩)
    fun K => forEach (fun K c => andThen (andThen (silent (AG.delParent c v) K) (delAdj c v)) (silent (AG.delDirected (v, c))))
      (o.ord 1 (K.ag.children v)) K)
    fun K => forEach (fun K s => andThen (andThen (silent (AG.delSpouse s v) K) (delAdj s v)) (silent (AG.delBidirected {s, v})))
      (o.ord 2 (K.ag.spouses v)) K)
    fun K => forEach (fun K n => andThen (andThen (silent (AG.delNbr n v) K) (delAdj n v)) (silent (AG.delUndirected {n, v})))
      (o.ord 3 (K.ag.neighbors v)) K

theorem removeNode_eq (ig : Bool) (o : SetOrder (Fin 4) α) (K : AKeyed α) (v : α) :
    K.removeNode ig o v = guard ig (if v ∈ K.ag.nodes then andThen (loops o v K) (dropKeys v) else (K, some .key)) := rfl

theorem grows_loops (o : SetOrder (Fin 4) α) (v : α) : Grows (loops o v) := by
  refine Grows.andThen (Grows.andThen (Grows.andThen (fun K => ?_) fun K => ?_) fun K => ?_) fun K => ?_
  · exact grows_forEach (fun p => ((grows_silent _).andThen (grows_delAdj _ _)).andThen (grows_silent _)) _
      (⟨{ K.ag with nodes := K.ag.nodes.erase v }, K.keys⟩ : AKeyed α)
  · exact grows_forEach (fun p => ((grows_silent _).andThen (grows_delAdj _ _)).andThen (grows_silent _)) _ K
  · exact grows_forEach (fun p => ((grows_silent _).andThen (grows_delAdj _ _)).andThen (grows_silent _)) _ K
  · exact grows_forEach (fun p => ((grows_silent _).andThen (grows_delAdj _ _)).andThen (grows_silent _)) _ K

theorem keeps_loops (o : SetOrder (Fin 4) α) (v : α) : Keeps (loops o v) := by
  refine Keeps.andThen (Keeps.andThen (Keeps.andThen (fun K hK => ?_) fun K hK => ?_) fun K hK => ?_) fun K hK => ?_
  · exact keeps_forEach (fun p => ((keeps_silent (adj_delChild _ _)).andThen (keeps_delAdj _ _)).andThen
      (keeps_silent (adj_delDirected _))) _ (⟨{ K.ag with nodes := K.ag.nodes.erase v }, K.keys⟩ : AKeyed α) hK
  · exact keeps_forEach (fun p => ((keeps_silent (adj_delParent _ _)).andThen (keeps_delAdj _ _)).andThen
      (keeps_silent (adj_delDirected _))) _ K hK
  · exact keeps_forEach (fun p => ((keeps_silent (adj_delSpouse _ _)).andThen (keeps_delAdj _ _)).andThen
      (keeps_silent (adj_delBidirected _))) _ K hK
  · exact keeps_forEach (fun p => ((keeps_silent (adj_delNbr _ _)).andThen (keeps_delAdj _ _)).andThen
      (keeps_silent (adj_delUndirected _))) _ K hK

theorem keeps_dropKeys (v : α) : Keeps (dropKeys v) := by
  intro K hK x hx
  simp only [dropKeys, AG.dropKeys] at hx ⊢
  by_cases hxv : x = v
  · subst hxv
    simp at hx
  · rw [Function.update_of_ne hxv] at hx
    exact Finset.mem_erase.2 ⟨hxv, hK x hx⟩

theorem keeps_removeNode (ig : Bool) (o : SetOrder (Fin 4) α) (v : α) : Keeps fun K => K.removeNode ig o v := by
  simp only [removeNode_eq]
  refine keeps_guard (f := fun K => if v ∈ K.ag.nodes then andThen (loops o v K) (dropKeys v) else (K, some .key)) (fun K hK => ?_) ig
  beta_reduce
  split_ifs
  · exact Keeps.andThen (keeps_loops o v) (keeps_dropKeys v) K hK
  · exact hK

/-- Which `adjKey` the code meets. -/
theorem base_removeNode (ig : Bool) (o : SetOrder (Fin 4) α) (K : AKeyed α) (v : α) :
    base (K.removeNode ig o v) = K.ag.removeNode ig (decide (v ∈ (loops o v K).1.keys)) o v := by
  rw [removeNode_eq]
  refine base_guard ?_
  by_cases hv : v ∈ K.ag.nodes
  · rw [if_pos hv, if_pos hv]
    have hl : base (loops o v K) = _ :=
      base_andThen (base_andThen (base_andThen
        (base_forEach (K := (⟨{ K.ag with nodes := K.ag.nodes.erase v }, K.keys⟩ : AKeyed α))
          (g := fun A p => ((AG.delChild p v A).andThen (AG.delAdj p v)).andThen (AG.delDirected (p, v)))
          (fun K p => base_andThen (base_andThen rfl fun _ => rfl) fun _ => rfl) (o.ord 0 (K.ag.parents v)))
        (g := fun A => AG.forEach (fun A c => ((AG.delParent c v A).andThen (AG.delAdj c v)).andThen (AG.delDirected (v, c)))
          (o.ord 1 (A.children v)) A)
        fun K => base_forEach (fun K p => base_andThen (base_andThen rfl fun _ => rfl) fun _ => rfl) _ _)
        (g := fun A => AG.forEach (fun A s => ((AG.delSpouse s v A).andThen (AG.delAdj s v)).andThen (AG.delBidirected {s, v}))
          (o.ord 2 (A.spouses v)) A)
        fun K => base_forEach (fun K p => base_andThen (base_andThen rfl fun _ => rfl) fun _ => rfl) _ _)
        (g := fun A => AG.forEach (fun A n => ((AG.delNbr n v A).andThen (AG.delAdj n v)).andThen (AG.delUndirected {n, v}))
          (o.ord 3 (A.neighbors v)) A)
        fun K => base_forEach (fun K p => base_andThen (base_andThen rfl fun _ => rfl) fun _ => rfl) _ _
    rcases e : loops o v K with ⟨K1, _ | x⟩ <;> rw [e] at hl
    · have hl' := congrArg (fun r : AG.Step α => r.andThen (AG.dropKeys (decide (v ∈ K1.keys)) v)) hl
      exact hl'
    · have hl' := congrArg (fun r : AG.Step α => r.andThen (AG.dropKeys (decide (v ∈ K1.keys)) v)) hl
      exact hl'
  · rw [if_neg hv, if_neg hv]
    rfl

/-! ## Reachable states -/

theorem exec_base (o os : SetOrder (Option α) α) (od : SetOrder (Fin 4) α) {K K' : AKeyed α} {c : Call α} {e : Option (Exn α)}
    (hc : c.Distinct) (h : AG.Reachable K.ag) (hK : exec o os od K c = some (K', e)) : AG.Reachable K'.ag := by
  have go : ∀ (adj : Bool) (op : AG.Op α), op.Distinct → op.exec ⟨o, os, od, adj⟩ K.ag = some (K'.ag, e) → AG.Reachable K'.ag :=
    fun adj op hop he => .call K.ag ⟨o, os, od, adj⟩ op K'.ag e h hop he
  cases c with
  | addNode v =>
    cases hK
    exact go false (.addNode v) trivial rfl
  | addDirected i j =>
    refine go false (.addDirected i j) hc ?_
    have := base_addDirected o os K i j
    rw [show K.addDirected o os i j = some (K', e) from hK] at this
    exact this.symm
  | addBidirected i j =>
    refine go false (.addBidirected i j) hc ?_
    have : base (K.addBidirected i j) = K.ag.addBidirected i j := base_andThen rfl fun _ => rfl
    rw [show K.addBidirected i j = (K', e) from Option.some.inj hK] at this
    exact congrArg some this.symm
  | addUndirected i j =>
    refine go false (.addUndirected i j) hc ?_
    have : base (K.addUndirected i j) = K.ag.addUndirected i j := rfl
    rw [show K.addUndirected i j = (K', e) from Option.some.inj hK] at this
    exact congrArg some this.symm
  | removeDirected ig i j =>
    refine go false (.removeDirected ig i j) trivial ?_
    have := base_removeDirected ig K i j
    rw [show K.removeDirected ig i j = (K', e) from Option.some.inj hK] at this
    exact congrArg some this.symm
  | removeBidirected ig i j =>
    refine go false (.removeBidirected ig i j) trivial ?_
    have := base_removeBidirected ig K i j
    rw [show K.removeBidirected ig i j = (K', e) from Option.some.inj hK] at this
    exact congrArg some this.symm
  | removeUndirected ig i j =>
    refine go false (.removeUndirected ig i j) trivial ?_
    have := base_removeUndirected ig K i j
    rw [show K.removeUndirected ig i j = (K', e) from Option.some.inj hK] at this
    exact congrArg some this.symm
  | removeEdge ig i j =>
    refine go false (.removeEdge ig i j) trivial ?_
    have := base_removeEdge ig K i j
    rw [show K.removeEdge ig i j = (K', e) from Option.some.inj hK] at this
    exact congrArg some this.symm
  | removeEdges ig l =>
    have hr : ∀ (l : List (α × α)) (K : AKeyed α), AG.Reachable K.ag → AG.Reachable (K.removeEdges ig l).1.ag := by
      intro l
      induction l with
      | nil => exact fun K h => h
      | cons a l ih =>
        intro K h
        have hb := base_removeEdge ig K a.1 a.2
        have h1 : AG.Reachable (K.removeEdge ig a.1 a.2).1.ag :=
          .call K.ag ⟨o, os, od, false⟩ (.removeEdge ig a.1 a.2) _ (K.removeEdge ig a.1 a.2).2 h trivial (congrArg some hb.symm)
        simp only [removeEdges, forEach, andThen]
        rcases e : K.removeEdge ig a.1 a.2 with ⟨K1, _ | x⟩ <;> rw [e] at h1
        · exact ih K1 h1
        · exact h1
    have := hr l K h
    rwa [show K.removeEdges ig l = (K', e) from Option.some.inj hK] at this
  | removeNode ig v =>
    refine go (decide (v ∈ (loops od v K).1.keys)) (.removeNode ig v) trivial ?_
    have := base_removeNode ig od K v
    rw [show K.removeNode ig od v = (K', e) from Option.some.inj hK] at this
    exact congrArg some this.symm
  | look s =>
    cases hK
    exact h

theorem exec_inv (o os : SetOrder (Option α) α) (od : SetOrder (Fin 4) α) {K K' : AKeyed α} {c : Call α} {e : Option (Exn α)}
    (h : Inv K) (hK : exec o os od K c = some (K', e)) : Inv K' := by
  have go : ∀ f : AKeyed α → Step α, Keeps f → some (f K) = some (K', e) → Inv K' := by
    intro f hf he
    have := hf K h
    rwa [Option.some.inj he] at this
  cases c with
  | addNode v =>
    cases hK
    exact h
  | addDirected i j =>
    have h1 := keeps_addDirectedRaw i j K h
    beta_reduce at h1
    simp only [exec, addDirected] at hK
    rcases e1 : K.addDirectedRaw i j with ⟨K1, _ | x⟩ <;> rw [e1] at hK h1
    · simp only at hK h1
      rcases e2 : (AG.topologicalSort K1.ag o os).run with _ | (x | l) <;> rw [e2] at hK
      · cases hK
      · have h2 : ∀ l, Inv (andThen (K1.removeDirected false i j) fun K2 => (K2, some (Exn.cycle l))).1 := by
          intro l
          exact Keeps.andThen (keeps_removeDirected false i j) (g := fun K2 => (K2, some (Exn.cycle l))) (fun _ h => h) K1 h1
        cases x <;> simp only [Option.some.injEq] at hK <;> first | (cases hK; exact h1) | skip
        rename_i l
        have := h2 l
        rwa [hK] at this
      · cases hK
        exact h1
    · cases hK
      exact h1
  | addBidirected i j => exact go _ (Keeps.andThen (keeps_addBidirectedRaw i j) (keeps_addBidirectedRaw i j)) hK
  | addUndirected i j => exact go _ (keeps_addUndirected i j) hK
  | removeDirected ig i j => exact go _ (keeps_removeDirected ig i j) hK
  | removeBidirected ig i j => exact go _ (keeps_removeBidirected ig i j) hK
  | removeUndirected ig i j => exact go _ (keeps_removeUndirected ig i j) hK
  | removeEdge ig i j => exact go _ (keeps_removeEdge ig i j) hK
  | removeEdges ig l => exact go _ (keeps_removeEdges ig l) hK
  | removeNode ig v => exact go _ (keeps_removeNode ig od v) hK
  | look s =>
    cases hK
    exact fun v hv => Finset.mem_union_left _ (h v hv)

theorem Reachable.spec {K : AKeyed α} (h : Reachable K) : AG.Reachable K.ag ∧ Inv K := by
  induction h with
  | new o nodes d b u K hne hK =>
    have h1 := base_new o nodes d b u
    have h2 := tight_new o nodes d b u
    rw [hK] at h1 h2
    exact ⟨.new o nodes d b u K.ag hne h1.symm, fun v => (h2 v).2⟩
  | call K o os od c K' e _ hc hK ih => exact ⟨exec_base o os od hc ih.1 hK, exec_inv o os od ih.2 hK⟩

/-- What `remove_node` raises, by the key it meets. -/
theorem removeNode_exn {K : AKeyed α} (h : Reachable K) (ig : Bool) (o : SetOrder (Fin 4) α) (v : α) :
    (K.removeNode ig o v).2 =
      if (v ∈ K.ag.nodes ∧ v ∈ (loops o v K).1.keys) ∨ ig = true then none else some .key := by
  have h1 := (AG.removeNode_spec h.spec.1.good ig (decide (v ∈ (loops o v K).1.keys)) o v).2.2.2.2.2
  have h2 := congrArg Prod.snd (base_removeNode ig o K v)
  simp only [base] at h2
  rw [h2, h1]
  simp

end Model.AKeyed
