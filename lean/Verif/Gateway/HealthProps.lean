import Verif.Gateway.Health
/-
C120: the theorems.
-/
namespace Verif
namespace Health

variable {utf8 : Bytes → Option (List Nat)}

theorem read_time (c : Client) (s : Nat) : s ≤ (c.read s).1 ∧ (c.read s).1 ≤ s + readTimeout := by
  unfold Client.read
  cases h : (List.range (readTimeout + 1)).find? (fun i => c.readable (s + i)) with
  | none => exact ⟨Nat.le_add_right _ _, Nat.le_refl _⟩
  | some i =>
    have := List.mem_range.mp (List.mem_of_find?_eq_some h)
    dsimp only
    omega

theorem one_time (now : Nat) (c : Client) :
    max now c.arrive ≤ (serveOne utf8 now c).1 ∧ (serveOne utf8 now c).1 ≤ max now c.arrive + (readTimeout + probeTimeout) := by
  have h := read_time c (max now c.arrive)
  unfold serveOne
  dsimp only
  split
  · split
    · split
      · dsimp only; omega
      · dsimp only; omega
    · dsimp only; omega
  · dsimp only; omega

/-- The time the loop is free after these. -/
def free (utf8 : Bytes → Option (List Nat)) : Nat → List (Option Client) → Nat
  | now, [] => now
  | now, none :: r => free utf8 now r
  | now, some c :: r => free utf8 (serveOne utf8 now c).1 r

theorem serve_append (a b : List (Option Client)) : ∀ now,
    serve utf8 now (a ++ b) = serve utf8 now a ++ serve utf8 (free utf8 now a) b := by
  induction a with
  | nil => intro now; rfl
  | cons x a ih =>
    intro now
    cases x with
    | none => exact ih now
    | some c => rw [List.cons_append, serve, serve, free, ih, List.cons_append]

/-- The connections accepted. -/
def accepted (l : List (Option Client)) : List Client := l.filterMap id

/-- C120. Every accepted connection is answered, in order, once; an accept error changes nothing. -/
theorem in_turn (utf8 : Bytes → Option (List Nat)) (now : Nat) (l : List (Option Client)) :
    (serve utf8 now l).length = (accepted l).length ∧ serve utf8 now l = serve utf8 now ((accepted l).map some) := by
  induction l generalizing now with
  | nil => exact ⟨rfl, rfl⟩
  | cons x l ih =>
    cases x with
    | none => exact ih now
    | some c =>
      obtain ⟨h1, h2⟩ := ih (serveOne utf8 now c).1
      refine ⟨?_, ?_⟩
      · rw [serve, List.length_cons, h1]; rfl
      · show _ :: _ = _ :: serve utf8 (serveOne utf8 now c).1 ((accepted l).map some)
        rw [← h2]

theorem free_bound (l : List (Option Client)) (a : Nat) (h : ∀ c ∈ accepted l, c.arrive ≤ a) : ∀ now,
    free utf8 now l ≤ max now a + (readTimeout + probeTimeout) * ((serve utf8 now l).filter (fun x => decide (a < x.1))).length := by
  induction l with
  | nil => intro now; exact Nat.le_trans (Nat.le_max_left _ _) (Nat.le_add_right _ _)
  | cons x l ih =>
    intro now
    cases x with
    | none => exact ih h now
    | some c =>
      have hc : c.arrive ≤ a := h c (by simp [accepted])
      have i := ih (fun d hd => h d (by simpa [accepted] using .inr (by simpa [accepted] using hd))) (serveOne utf8 now c).1
      have t := one_time (utf8 := utf8) now c
      rw [free, serve, List.filter_cons]
      by_cases hd : a < (serveOne utf8 now c).1
      · rw [if_pos (by simpa using hd), List.length_cons, Nat.mul_add, Nat.mul_one]
        omega
      · rw [if_neg (by simpa using hd)]
        omega

/-- C120. A connection is answered within three seconds, and three more for each connection before it that was not yet
answered when it came. -/
theorem prompt (utf8 : Bytes → Option (List Nat)) (before after : List (Option Client)) (c : Client)
    (h : ∀ d ∈ accepted before, d.arrive ≤ c.arrive) :
    ∃ x, (serve utf8 0 (before ++ some c :: after))[(accepted before).length]? = some x ∧ c.arrive ≤ x.1 ∧
      x.1 ≤ c.arrive + 3000 *
        (1 + ((serve utf8 0 before).filter (fun y => decide (c.arrive < y.1))).length) := by
  refine ⟨serveOne utf8 (free utf8 0 before) c, ?_, ?_, ?_⟩
  · rw [serve_append, List.getElem?_append_right (by rw [(in_turn utf8 0 before).1]; exact Nat.le_refl _), (in_turn utf8 0 before).1, Nat.sub_self]
    rfl
  · exact Nat.le_trans (Nat.le_max_right _ _) (one_time _ c).1
  · have t := (one_time (utf8 := utf8) (free utf8 0 before) c).2
    have b := free_bound (utf8 := utf8) before c.arrive h 0
    unfold readTimeout probeTimeout at t b
    omega

/-- C120. When nobody is before it, a connection is answered within three seconds. -/
theorem prompt_alone (utf8 : Bytes → Option (List Nat)) (c : Client) (after : List (Option Client)) :
    ∃ x, (serve utf8 0 (some c :: after))[0]? = some x ∧ x.1 ≤ c.arrive + 3000 := by
  obtain ⟨x, h1, -, h3⟩ := prompt utf8 [] after c (fun _ h => by cases h)
  exact ⟨x, h1, h3⟩

/-- C120. The answer to a connection: what the probe said within a second if the first read holds a request for the workers'
path, and the liveness answer otherwise. -/
theorem answer_spec (now : Nat) (c : Client) :
    ∃ t, max now c.arrive ≤ t ∧ t ≤ max now c.arrive + 2000 ∧
      ((∃ b, (serveOne utf8 now c).2 = .workers b) ↔
        requestPath utf8 (c.read (max now c.arrive)).2 = some workersPath) ∧
      ((serveOne utf8 now c).2 = .workers true ↔
        requestPath utf8 (c.read (max now c.arrive)).2 = some workersPath ∧ ∃ d, c.probe t = some (d, true) ∧ d ≤ 1000) := by
  refine ⟨(c.read (max now c.arrive)).1, (read_time c _).1, (read_time c _).2, ?_⟩
  unfold serveOne
  dsimp only
  by_cases h : requestPath utf8 (c.read (max now c.arrive)).2 = some workersPath
  · rw [if_pos h]
    cases hp : c.probe (c.read (max now c.arrive)).1 with
    | none => simp [h]
    | some p =>
      obtain ⟨d, b⟩ := p
      dsimp only
      by_cases hd : d ≤ probeTimeout
      · rw [if_pos hd]
        have hd' : d ≤ 1000 := hd
        cases b <;> simp [h, hd']
      · rw [if_neg hd]
        have hd' : ¬ d ≤ 1000 := hd
        simp [h, hd']
  · rw [if_neg h]
    simp [h]

/-- C120. Fail closed: if a worker is reported as accepting, its probe said so, within a second of being asked, after this
connection came. -/
theorem fail_closed (utf8 : Bytes → Option (List Nat)) (l : List (Option Client)) : ∀ now x, x ∈ serve utf8 now l →
    x.2 = .workers true → ∃ c ∈ accepted l, ∃ t d, c.arrive ≤ t ∧ c.probe t = some (d, true) ∧ d ≤ 1000 ∧ x.1 = t + d := by
  induction l with
  | nil => intro now x h; cases h
  | cons y l ih =>
    intro now x hx hr
    cases y with
    | none => exact ih now x hx hr
    | some c =>
      rw [serve] at hx
      rcases List.mem_cons.mp hx with e | hx
      · refine ⟨c, by simp [accepted], (c.read (max now c.arrive)).1, ?_⟩
        have t := (read_time c (max now c.arrive)).1
        subst e
        revert hr
        unfold serveOne
        dsimp only
        split
        · split
          · rename_i d b hp
            split
            · rename_i hd
              intro hb
              cases hb
              exact ⟨d, by omega, hp, hd, rfl⟩
            · intro hb; cases hb
          · intro hb; cases hb
        · intro hb; cases hb
      · obtain ⟨c', h1, h2⟩ := ih _ x hx hr
        exact ⟨c', by simpa [accepted] using .inr (by simpa [accepted] using h1), h2⟩

/-! ### Which requests are routed -/

theorem takeWhile_app (p : Nat → Bool) {a b : List Nat} (h : ∀ x ∈ a, p x = true) :
    (a ++ b).takeWhile p = a ++ b.takeWhile p ∧ (a ++ b).dropWhile p = b.dropWhile p := by
  induction a with
  | nil => exact ⟨rfl, rfl⟩
  | cons x a ih =>
    obtain ⟨i1, i2⟩ := ih (fun y hy => h y (by simp [hy]))
    rw [List.cons_append, List.takeWhile_cons, List.dropWhile_cons, if_pos (h x (by simp)), if_pos (h x (by simp)), i1, i2]
    exact ⟨rfl, rfl⟩

theorem drop_word {a : List Nat} (ha : a ≠ []) (h : ∀ x ∈ a, ws x = false) (b : List Nat) :
    (a ++ b).dropWhile ws = a ++ b := by
  cases a with
  | nil => exact absurd rfl ha
  | cons x a => rw [List.cons_append, List.dropWhile_cons, if_neg (by rw [h x (by simp)]; simp)]

/-- C120. The path of a request is its second word, up to a question mark: for the request `method path rest` in ASCII. -/
theorem path_of (hu : Ascii utf8) {method path rest : Bytes} (hm : method ≠ []) (hp : path ≠ [])
    (h1 : ∀ x ∈ method, ws x = false) (h2 : ∀ x ∈ path, ws x = false)
    (ha : ∀ x ∈ method ++ 32 :: path ++ 32 :: rest, x < 128) :
    requestPath utf8 (method ++ 32 :: path ++ 32 :: rest) = some (path.takeWhile (fun x => x != 63)) := by
  have nl : ∀ x, ws x = false → (x != 10) = true := by
    intro x hx
    by_cases e : x = 10
    · subst e; exact absurd hx (by decide)
    · simpa using e
  have hf : firstLine (method ++ 32 :: path ++ 32 :: rest) =
      some (method ++ ([32] ++ (path ++ ([32] ++ rest.takeWhile (fun x => x != 10))))) := by
    unfold firstLine
    rw [if_neg (by cases method <;> simp)]
    have e : method ++ 32 :: path ++ 32 :: rest = method ++ ([32] ++ (path ++ ([32] ++ rest))) := by simp
    rw [e, (takeWhile_app _ (fun x hx => nl x (h1 x hx))).1, (takeWhile_app _ (by decide)).1,
      (takeWhile_app _ (fun x hx => nl x (h2 x hx))).1, (takeWhile_app _ (by decide)).1]
  unfold requestPath
  rw [hu _ ha, Option.bind_some, hf, Option.bind_some]
  generalize rest.takeWhile (fun x => x != 10) = r
  have e1 : (method ++ ([32] ++ (path ++ ([32] ++ r)))).dropWhile ws = method ++ ([32] ++ (path ++ ([32] ++ r))) :=
    drop_word hm h1 _
  have e2 : (method ++ ([32] ++ (path ++ ([32] ++ r)))).dropWhile (fun x => !ws x) = [32] ++ (path ++ ([32] ++ r)) := by
    rw [(takeWhile_app _ (fun x hx => by rw [h1 x hx]; rfl)).2]
    rfl
  have e3 : ([32] ++ (path ++ ([32] ++ r))).dropWhile ws = path ++ ([32] ++ r) := by
    rw [(takeWhile_app _ (by decide)).2, drop_word hp h2]
  have e4 : (path ++ ([32] ++ r)).takeWhile (fun x => !ws x) = path := by
    rw [(takeWhile_app _ (fun x hx => by rw [h2 x hx]; rfl)).1]
    show path ++ [] = path
    rw [List.append_nil]
  unfold second
  dsimp only
  rw [e1, e2, e3, if_neg (by cases path with | nil => exact absurd rfl hp | cons y p => simp), e4]
  rfl

/-- C120. A poll that arrives whole, in a request no longer than the buffer, with nobody before it, is told what the probe
says. -/
theorem poll_answered (hu : Ascii utf8) (c : Client) (method rest query : Bytes) (d : Nat) (b : Bool)
    (hm : method ≠ []) (h1 : ∀ x ∈ method, ws x = false) (hq : query = [] ∨ ∃ q, query = 63 :: q ∧ ∀ x ∈ q, ws x = false)
    (hc : c.chunks = [(c.arrive, method ++ 32 :: (workersPath ++ query) ++ 32 :: rest)])
    (ha : ∀ x ∈ method ++ 32 :: (workersPath ++ query) ++ 32 :: rest, x < 128)
    (hl : (method ++ 32 :: (workersPath ++ query) ++ 32 :: rest).length ≤ 1024)
    (hp : c.probe c.arrive = some (d, b)) (hd : d ≤ 1000) (after : List (Option Client)) :
    (serve utf8 0 (some c :: after))[0]? = some (c.arrive + d, .workers b) := by
  have hav : c.avail c.arrive = method ++ 32 :: (workersPath ++ query) ++ 32 :: rest := by
    unfold Client.avail
    rw [hc]
    simp
  have hr : c.read c.arrive = (c.arrive, method ++ 32 :: (workersPath ++ query) ++ 32 :: rest) := by
    have hf : (List.range (readTimeout + 1)).find? (fun i => c.readable (c.arrive + i)) = some 0 := by
      rw [List.range_succ_eq_map, List.find?_cons_of_pos]
      unfold Client.readable
      rw [Nat.add_zero, hav]
      cases method <;> simp
    unfold Client.read
    rw [hf]
    dsimp only
    rw [Nat.add_zero, hav, List.take_of_length_le (show _ ≤ readBuf from hl)]
  have hpath : requestPath utf8 (method ++ 32 :: (workersPath ++ query) ++ 32 :: rest) = some workersPath := by
    rw [path_of hu hm (by simp [workersPath]) h1 _ ha]
    · rcases hq with rfl | ⟨q, rfl, -⟩
      · rw [List.append_nil]; decide
      · rw [(takeWhile_app _ (by decide)).1]
        show some (workersPath ++ []) = _
        rw [List.append_nil]
    · intro x hx
      rcases List.mem_append.mp hx with hx | hx
      · exact (show ∀ y ∈ workersPath, ws y = false by decide) x hx
      · rcases hq with rfl | ⟨q, rfl, hq⟩
        · cases hx
        · rcases List.mem_cons.mp hx with rfl | hx
          · decide
          · exact hq x hx
  rw [serve, List.getElem?_cons_zero]
  unfold serveOne
  dsimp only
  rw [Nat.zero_max, hr]
  dsimp only
  rw [if_pos hpath, hp]
  dsimp only
  rw [if_pos (show d ≤ probeTimeout from hd)]

/-- C120. The length named in the head is that of the body. -/
theorem length_named (a : Answer) : ∃ n pre, a.response.1 = pre ++ "Content-Length: " ++ toString n ++ "\r\n\r\n" ∧
    n = a.response.2.utf8ByteSize := by
  cases a with
  | alive => exact ⟨2, "HTTP/1.1 200 OK\r\n", by decide +kernel, by decide +kernel⟩
  | workers b =>
    refine ⟨(body b).utf8ByteSize, "HTTP/1.1 200 OK\r\nContent-Type: application/json\r\n", ?_, rfl⟩
    cases b <;> decide +kernel

/-- The path in letters. -/
theorem workers_path : workersPath = "/health/workers".toList.map Char.toNat := by decide +kernel

/-! ### Findings and cases -/

/-- A connection that sends nothing. -/
def idle (t : Nat) : Client := ⟨t, [], none, fun _ => none⟩

theorem idle_read (t s : Nat) : (idle t).read s = (s + 2000, []) := by
  have hf : (List.range (readTimeout + 1)).find? (fun i => (idle t).readable (s + i)) = none := by
    rw [List.find?_eq_none]
    intro i _
    simp [Client.readable, Client.avail, idle]
  unfold Client.read
  rw [hf]
  rfl

theorem path_empty (hu : Ascii utf8) : requestPath utf8 [] = none := by
  unfold requestPath
  rw [hu [] (by simp)]
  rfl

/-- Every idle connection holds all that come after it up for two seconds, the default time-out of a gateway's poll: a client
that opens one every two seconds keeps the node out of the gateways. -/
theorem idle_holds_up (hu : Ascii utf8) (n : Nat) (t : Nat) (c : Client) (hc : c.arrive = t) (after : List (Option Client)) :
    ∃ x, (serve utf8 t (List.replicate n (some (idle t)) ++ some c :: after))[n]? = some x ∧ t + 2000 * n ≤ x.1 := by
  have key : ∀ n now, t ≤ now → free utf8 now (List.replicate n (some (idle t))) = now + 2000 * n ∧
      (serve utf8 now (List.replicate n (some (idle t)))).length = n := by
    intro n
    induction n with
    | zero => intro now _; exact ⟨rfl, rfl⟩
    | succ n ih =>
      intro now hn
      have e : serveOne utf8 now (idle t) = (now + 2000, .alive) := by
        unfold serveOne
        dsimp only
        rw [show max now (idle t).arrive = now from Nat.max_eq_left hn, idle_read]
        dsimp only
        rw [path_empty hu, if_neg (by simp)]
      obtain ⟨i1, i2⟩ := ih (now + 2000) (by omega)
      rw [List.replicate_succ, free, serve, e]
      refine ⟨?_, ?_⟩
      · dsimp only; rw [i1]; omega
      · rw [List.length_cons]; dsimp only; rw [i2]
  obtain ⟨k1, k2⟩ := key n t (Nat.le_refl _)
  refine ⟨serveOne utf8 (t + 2000 * n) c, ?_, ?_⟩
  · rw [serve_append, List.getElem?_append_right (by rw [k2]; exact Nat.le_refl _), k2, Nat.sub_self, k1]
    rfl
  · exact Nat.le_trans (Nat.le_max_left _ _) (one_time _ c).1

namespace Ex

/-- A decoder that knows ASCII only. -/
def ascii : Bytes → Option (List Nat) := fun b => if b.all (fun x => decide (x < 128)) then some b else none

theorem ascii_ok : Ascii ascii := by
  intro b h
  unfold ascii
  rw [if_pos (List.all_eq_true.mpr (fun x hx => by simpa using h x hx))]

/-- `GET /health/workers HTTP/1.1`. -/
def get : Bytes := [71, 69, 84, 32] ++ workersPath ++ [32, 72, 84, 84, 80, 47, 49, 46, 49, 13, 10, 13, 10]

/-- A poll at time 10 whose probe takes 5 ms and says yes, answered at 15. -/
example : serve ascii 0 [some ⟨10, [(10, get)], none, fun _ => some (5, true)⟩] = [(15, .workers true)] := by decide +kernel

/-- The hypotheses of `poll_answered` are met. -/
example : (serve ascii 0 [some ⟨10, [(10, get)], none, fun _ => some (5, true)⟩])[0]? = some (10 + 5, .workers true) :=
  poll_answered ascii_ok ⟨10, [(10, get)], none, fun _ => some (5, true)⟩ [71, 69, 84] [72, 84, 84, 80, 47, 49, 46, 49, 13, 10, 13, 10]
    [] 5 true (by decide) (by decide) (.inl rfl) (by decide) (by decide) (by decide) rfl (by decide) []

/-- A slow client, an accept error, then two polls; the last one's probe is too slow. -/
example : serve ascii 0 [some (idle 0), none, some ⟨10, [(10, get)], none, fun _ => some (5, true)⟩,
      some ⟨2500, [(2600, get)], none, fun _ => some (1500, true)⟩] =
    [(2000, .alive), (2005, .workers true), (3600, .workers false)] := by decide +kernel

/-- The request is read once: if it comes in two pieces the answer is the one for liveness, which no gateway reads as ready. -/
theorem split_request :
    serve ascii 0 [some ⟨10, [(10, get.take 8), (11, get.drop 8)], none, fun _ => some (5, true)⟩] = [(10, .alive)] := by
  decide +kernel

/-- Method and version are not looked at: `X /health/workers` is answered too. -/
theorem any_method : serve ascii 0 [some ⟨0, [(0, [88, 32] ++ workersPath)], none, fun _ => some (5, true)⟩] = [(5, .workers true)] := by
  decide +kernel

end Ex

end Health
end Verif
