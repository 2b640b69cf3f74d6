import Verif.Endp.Spec
/-! # Lemmas about the storage of endpoints -/
namespace Cobalt.Endp

theorem put_at (m : Mem) (bs : List Byte) (i : Nat) (h : i < bs.length) :
    m.put 0 bs i = bs[i]? := by
  simp [Mem.put, h]

theorem get_put (m : Mem) (bs : List Byte) :
    ∀ (n off : Nat), off + n ≤ bs.length → (m.put 0 bs).get off n = some ((bs.drop off).take n) := by
  intro n
  induction n with
  | zero => intro off _; simp [Mem.get]
  | succ n ih =>
    intro off h
    have ho : off < bs.length := by omega
    rw [Mem.get, ih (off + 1) (by omega), put_at m bs off ho, List.getElem?_eq_getElem ho,
      List.drop_eq_getElem_cons ho, List.take_succ_cons]

theorem cstr_put (m : Mem) : ∀ (path : List Byte) (bs rest : List Byte) (off n : Nat),
    bs.drop off = path ++ 0 :: rest → 0 ∉ path → path.length < n →
    (m.put 0 bs).cstr off n = some path := by
  intro path
  induction path with
  | nil =>
    intro bs rest off n h _ hn
    have ho : off < bs.length := by
      have := congrArg List.length h; simp at this; omega
    rw [List.drop_eq_getElem_cons ho] at h
    cases n with
    | zero => exact absurd hn (by simp)
    | succ n =>
      have h0 : bs[off] = 0 := by have := List.cons.inj h; exact this.1
      simp [Mem.cstr, put_at m bs off ho, List.getElem?_eq_getElem ho, h0]
  | cons b path ih =>
    intro bs rest off n h h0 hn
    have ho : off < bs.length := by
      have := congrArg List.length h; simp at this; omega
    rw [List.drop_eq_getElem_cons ho] at h
    cases n with
    | zero => exact absurd hn (by simp)
    | succ n =>
      obtain ⟨hb, ht⟩ := List.cons.inj h
      simp only [List.mem_cons, not_or] at h0
      have hb0 : b ≠ 0 := fun h => h0.1 h.symm
      have := ih bs rest (off + 1) n ht h0.2 (by simp at hn; omega)
      simp [Mem.cstr, put_at m bs off ho, List.getElem?_eq_getElem ho, hb, hb0, this]

theorem load16_store16 (big : Bool) (n : Nat) (h : n < 65536) : load16 big (store16 big n) = n := by
  cases big <;> simp [store16, load16, byte] <;> omega

theorem swap16_lt (big : Bool) (n : Nat) (h : n < 65536) : swap16 big n < 65536 := by
  cases big <;> simp [swap16] <;> omega

theorem swap16_swap16 (big : Bool) (n : Nat) (h : n < 65536) : swap16 big (swap16 big n) = n := by
  cases big
  · simp only [swap16, Bool.false_eq_true, if_false]
    have h1 : (n % 256 * 256 + n / 256) % 256 = n / 256 := by omega
    have h2 : (n % 256 * 256 + n / 256) / 256 = n % 256 := by omega
    rw [h1, h2]; omega
  · rfl

theorem digits (a b c d : Byte) :
    network (((a.val * 256 + b.val) * 256 + c.val) * 256 + d.val) = [a, b, c, d] := by
  have ha := a.isLt; have hb := b.isLt; have hc := c.isLt; have hd := d.isLt
  simp only [network, byte, List.cons.injEq, Fin.ext_iff, and_true]
  omega

theorem load32_store32 (big : Bool) (n : Nat) (h : n < 2 ^ 32) : load32 big (store32 big n) = n := by
  cases big <;> simp [store32, load32, byte] <;> omega

theorem store32_swap32 (big : Bool) (n : Nat) (h : n < 2 ^ 32) :
    store32 big (swap32 big n) = network n := by
  cases big
  · have := digits (byte n) (byte (n / 256)) (byte (n / 65536)) (byte (n / 16777216))
    simp only [network] at this
    simp only [swap32, store32, load32, Bool.false_eq_true, if_false, if_true, List.reverse_cons,
      List.reverse_nil, List.nil_append, List.cons_append, List.foldl_cons, List.foldl_nil,
      Nat.zero_mul, Nat.zero_add, List.cons.injEq, and_true, network] at this ⊢
    exact ⟨this.2.2.2, this.2.2.1, this.2.1, this.1⟩
  · simp only [swap32]
    rw [load32_store32 true n h]; simp [store32, network]

@[simp] theorem store16_length (big : Bool) (n : Nat) : (store16 big n).length = 2 := by
  cases big <;> rfl

@[simp] theorem store32_length (big : Bool) (n : Nat) : (store32 big n).length = 4 := by
  cases big <;> rfl

theorem store16_cases (big : Bool) (n : Nat) : ∃ a b, store16 big n = [a, b] := by
  cases big <;> exact ⟨_, _, rfl⟩

theorem store32_cases (big : Bool) (n : Nat) : ∃ a b c d, store32 big n = [a, b, c, d] := by
  cases big <;> exact ⟨_, _, _, _, rfl⟩

/-- Reading one of three pieces. -/
theorem get_mid (m : Mem) (x y z : List Byte) (off n : Nat) (hx : x.length = off)
    (hy : y.length = n) : (m.put 0 (x ++ y ++ z)).get off n = some y := by
  subst hx hy
  rw [get_put _ _ _ _ (by simp)]
  simp

theorem family_first (big : Bool) (f : Nat) (hf : f < 65536) (rest : List Byte) (size t p : Nat) :
    (Endpoint.mk (blank.put 0 (store16 big f ++ rest)) size t p).family big = some f := by
  have := get_mid blank [] (store16 big f) rest 0 2 rfl (by simp)
  simp only [List.nil_append] at this
  simp [Endpoint.family, this, load16_store16 big f hf]

theorem port_second (big : Bool) (f port : Nat) (hp : port < 65536) (rest : List Byte)
    (size t p : Nat) :
    (Endpoint.mk (blank.put 0 (store16 big f ++ store16 big (swap16 big port) ++ rest)) size t p).port big
      = some port := by
  have := get_mid blank (store16 big f) (store16 big (swap16 big port)) rest 2 2 (by simp) (by simp)
  simp only [Endpoint.port, this, Option.map_some, load16_store16 big _ (swap16_lt big port hp),
    swap16_swap16 big port hp]

theorem store16_swap16 (big : Bool) (n : Nat) (h : n < 65536) :
    store16 big (swap16 big n) = [byte (n / 256), byte n] := by
  cases big
  · have h1 : (n % 256 * 256 + n / 256) % 256 = n / 256 := by omega
    have h2 : (n % 256 * 256 + n / 256) / 256 = n % 256 := by omega
    simp only [swap16, store16, byte, Bool.false_eq_true, if_false, List.cons.injEq, Fin.ext_iff, and_true]
    rw [h1, h2]
    omega
  · rfl

theorem wire_second (big : Bool) (f port : Nat) (hp : port < 65536) (rest : List Byte) :
    (blank.put 0 (store16 big f ++ store16 big (swap16 big port) ++ rest)).get 2 2
      = some [byte (port / 256), byte port] := by
  rw [get_mid blank (store16 big f) (store16 big (swap16 big port)) rest 2 2 (by simp) (by simp),
    store16_swap16 big port hp]

theorem in4_wire (big : Bool) (port a : Nat) (hp : port < 65536) :
    (blank.put 0 (sockaddrIn big port a)).get 2 2 = some [byte (port / 256), byte port] := by
  unfold sockaddrIn
  rw [List.append_assoc (_ ++ _)]
  exact wire_second big 2 port hp _

theorem in6_wire (big : Bool) (port : Nat) (a : List Byte) (hp : port < 65536) :
    (blank.put 0 (sockaddrIn6 big port a)).get 2 2 = some [byte (port / 256), byte port] := by
  unfold sockaddrIn6
  rw [List.append_assoc (_ ++ _ ++ _), List.append_assoc (_ ++ _)]
  exact wire_second big 10 port hp _

theorem in4_bytes (big : Bool) (port a : Nat) :
    (blank.put 0 (sockaddrIn big port a)).get 4 4 = some (store32 big a) := by
  unfold sockaddrIn
  exact get_mid _ _ _ _ _ _ (by simp) (by simp)

theorem in6_bytes (big : Bool) (port : Nat) (a : List Byte) (h : a.length = 16) :
    (blank.put 0 (sockaddrIn6 big port a)).get 8 16 = some a := by
  unfold sockaddrIn6
  exact get_mid _ _ _ _ _ _ (by simp) h

theorem in4_family (big : Bool) (port a size t p : Nat) :
    (Endpoint.mk (blank.put 0 (sockaddrIn big port a)) size t p).family big = some 2 := by
  unfold sockaddrIn
  rw [List.append_assoc, List.append_assoc]
  exact family_first big 2 (by omega) _ size t p

theorem in6_family (big : Bool) (port : Nat) (a : List Byte) (size t p : Nat) :
    (Endpoint.mk (blank.put 0 (sockaddrIn6 big port a)) size t p).family big = some 10 := by
  unfold sockaddrIn6
  rw [List.append_assoc, List.append_assoc, List.append_assoc]
  exact family_first big 10 (by omega) _ size t p

theorem un_family (big : Bool) (path : List Byte) (size t p : Nat) :
    (Endpoint.mk (blank.put 0 (sockaddrUn big path)) size t p).family big = some 1 := by
  unfold sockaddrUn
  rw [List.append_assoc]
  exact family_first big 1 (by omega) _ size t p

theorem in4_port (big : Bool) (port a size t p : Nat) (hp : port < 65536) :
    (Endpoint.mk (blank.put 0 (sockaddrIn big port a)) size t p).port big = some port := by
  unfold sockaddrIn
  rw [List.append_assoc (_ ++ _)]
  exact port_second big 2 port hp _ size t p

theorem in6_port (big : Bool) (port : Nat) (a : List Byte) (size t p : Nat) (hp : port < 65536) :
    (Endpoint.mk (blank.put 0 (sockaddrIn6 big port a)) size t p).port big = some port := by
  unfold sockaddrIn6
  rw [List.append_assoc (_ ++ _ ++ _), List.append_assoc (_ ++ _)]
  exact port_second big 10 port hp _ size t p

theorem un_path (big : Bool) (path : List Byte) (h : path.length < 108) (h0 : 0 ∉ path)
    (size t p : Nat) :
    (Endpoint.mk (blank.put 0 (sockaddrUn big path)) size t p).path = some path := by
  have hr : List.replicate (108 - path.length) (0 : Byte)
      = 0 :: List.replicate (108 - path.length - 1) 0 := by
    rw [← List.replicate_succ]; congr 1; omega
  refine cstr_put _ path _ (List.replicate (108 - path.length - 1) 0) 2 108 ?_ h0 h
  unfold sockaddrUn
  rw [hr, List.append_assoc, List.drop_left' (by simp)]

theorem split_nul (l : List Byte) (h : 0 ∈ l) :
    ∃ rest, l = l.takeWhile (· ≠ 0) ++ 0 :: rest := by
  induction l with
  | nil => cases h
  | cons a l ih =>
    by_cases ha : a = 0
    · exact ⟨l, by simp [ha]⟩
    · have : 0 ∈ l := by
        rcases List.mem_cons.1 h with h | h
        · exact absurd h.symm ha
        · exact h
      obtain ⟨r, hr⟩ := ih this
      refine ⟨r, ?_⟩
      rw [List.takeWhile_cons_of_pos (by simpa using ha), List.cons_append, ← hr]

theorem takeWhile_noNul (l : List Byte) : 0 ∉ l.takeWhile (· ≠ 0) := by
  induction l with
  | nil => simp
  | cons a l ih =>
    by_cases ha : a = 0
    · simp [ha]
    · rw [List.takeWhile_cons_of_pos (by simpa using ha)]
      simp only [List.mem_cons, not_or]
      exact ⟨fun h => ha h.symm, ih⟩

theorem takeWhile_length (l : List Byte) : (l.takeWhile (· ≠ 0)).length ≤ l.length :=
  (List.takeWhile_sublist _).length_le

theorem takeWhile_id (l : List Byte) (h : 0 ∉ l) : l.takeWhile (· ≠ 0) = l := by
  induction l with
  | nil => rfl
  | cons a l ih =>
    simp only [List.mem_cons, not_or] at h
    rw [List.takeWhile_cons_of_pos (by simpa using fun ha => h.1 ha.symm), ih h.2]

theorem un_path_any (big : Bool) (path : List Byte) (h : path.length < 108) (size t p : Nat) :
    (Endpoint.mk (blank.put 0 (sockaddrUn big path)) size t p).path
      = some (path.takeWhile (· ≠ 0)) := by
  by_cases h0 : 0 ∈ path
  · obtain ⟨rest, hr⟩ := split_nul path h0
    refine cstr_put _ _ _ (rest ++ List.replicate (108 - path.length) 0) 2 108 ?_
      (takeWhile_noNul path) (by have := takeWhile_length path; omega)
    unfold sockaddrUn
    rw [List.append_assoc, List.drop_left' (by simp)]
    conv => lhs; lhs; rw [hr]
    simp
  · rw [un_path big path h h0]
    rw [takeWhile_id path h0]

/-- An endpoint that was made has the family of what it was made from. -/
theorem make_family (big : Bool) (t p : Nat) (src : Src) (ep : Endpoint)
    (h : Endpoint.make big t p src = some ep) : ep.family big = some src.actual := by
  cases src with
  | v4 a q => cases h; exact in4_family ..
  | v4text a q => cases h; exact in4_family ..
  | ipv4 a q => cases h; exact in4_family ..
  | v6 a q => cases h; exact in6_family ..
  | ipv6 a q => cases h; exact in6_family ..
  | unix path =>
    simp only [Endpoint.make, Src.make] at h
    split at h
    · cases h
    · cases h; exact un_family ..

theorem make_fields (big : Bool) (t p : Nat) (src : Src) (ep : Endpoint)
    (h : Endpoint.make big t p src = some ep) : ep.type = t ∧ ep.protocol = p := by
  simp only [Endpoint.make, Option.map_eq_some_iff] at h
  obtain ⟨⟨bs, n⟩, _, rfl⟩ := h
  exact ⟨rfl, rfl⟩

theorem make_reads (big : Bool) (t p : Nat) (src : Src) (ep : Endpoint)
    (ok : src.Ok) (plain : src.Plain)
    (h : Endpoint.make big t p src = some ep) : ReadsBack big ep src := by
  cases src with
  | v4 a q =>
    cases h
    refine ⟨?_, in4_port _ _ _ _ _ _ ok.2⟩
    simp [Endpoint.addr4, in4_bytes, load32_store32 big a ok.1]
  | v4text a q =>
    cases h
    refine ⟨?_, in4_port _ _ _ _ _ _ ok.2⟩
    simp [Endpoint.addrIp, in4_family, in4_bytes, afInet, store32_swap32 big a ok.1]
  | ipv4 a q =>
    cases h
    refine ⟨?_, in4_port _ _ _ _ _ _ ok.2⟩
    simp [Endpoint.addrIp, in4_family, in4_bytes, afInet, store32_swap32 big a ok.1]
  | v6 a q =>
    cases h
    refine ⟨?_, ?_, in6_port _ _ _ _ _ _ ok.2⟩
    · exact in6_bytes _ _ _ ok.1
    · simp [Endpoint.addrIp, in6_family, in6_bytes _ _ _ ok.1, afInet]
  | ipv6 a q =>
    cases h
    refine ⟨?_, ?_, in6_port _ _ _ _ _ _ ok.2⟩
    · exact in6_bytes _ _ _ ok.1
    · simp [Endpoint.addrIp, in6_family, in6_bytes _ _ _ ok.1, afInet]
  | unix path =>
    simp only [Endpoint.make, Src.make] at h
    split at h
    · cases h
    · cases h; exact un_path big path ok plain ..

theorem getIf_eq (big : Bool) (ep : Endpoint) (p : Proto) (f : Nat) (hf : ep.family big = some f)
    (ht : p.type = 0 ∨ ep.type = 0 ∨ p.type = ep.type)
    (hp : p.protocol = 0 ∨ ep.protocol = 0 ∨ p.protocol = ep.protocol)
    : ep.getIf big p = expectView f p.family := by
  have h1 : ¬ (p.type ≠ 0 ∧ ep.type ≠ 0 ∧ ep.type ≠ p.type) := by
    rintro ⟨a, b, c⟩; rcases ht with h | h | h
    · exact a h
    · exact b h
    · exact c h.symm
  have h2 : ¬ (p.protocol ≠ 0 ∧ ep.protocol ≠ 0 ∧ ep.protocol ≠ p.protocol) := by
    rintro ⟨a, b, c⟩; rcases hp with h | h | h
    · exact a h
    · exact b h
    · exact c h.symm
  simp only [Endpoint.getIf, hf, if_neg h1, if_neg h2, expectView, afUnix, afInet, afInet6, afUnspec]
  grind

/-- The kind of a socket or its protocol does not match. -/
theorem getIf_mismatch (big : Bool) (ep : Endpoint) (p : Proto) (f : Nat)
    (hf : ep.family big = some f)
    (h : ¬ ((p.type = 0 ∨ ep.type = 0 ∨ p.type = ep.type) ∧
        (p.protocol = 0 ∨ ep.protocol = 0 ∨ p.protocol = ep.protocol))) :
    ep.getIf big p = .nothing := by
  simp only [Endpoint.getIf, hf]
  grind

/-! ### Copies -/

theorem get_congr (m m' : Mem) : ∀ (n off : Nat), (∀ i, off ≤ i → i < off + n → m i = m' i) →
    m.get off n = m'.get off n := by
  intro n
  induction n with
  | zero => intros; rfl
  | succ n ih =>
    intro off h
    rw [Mem.get, Mem.get, h off (by omega) (by omega), ih (off + 1) fun i h1 h2 => h i (by omega) (by omega)]

theorem cstr_congr (m m' : Mem) : ∀ (n off : Nat) (s : List Byte),
    m.cstr off n = some s → (∀ i, off ≤ i → i < off + s.length + 1 → m i = m' i) →
    m'.cstr off n = some s := by
  intro n
  induction n with
  | zero => intro off s h; cases h
  | succ n ih =>
    intro off s h hm
    rw [Mem.cstr] at h ⊢
    rw [← hm off (by omega) (by omega)]
    cases hb : m off with
    | none => rw [hb] at h; cases h
    | some b =>
      rw [hb] at h
      simp only at h ⊢
      split at h
      · cases h; simp [*]
      · rename_i h0
        rw [if_neg h0]
        rw [Option.map_eq_some_iff] at h ⊢
        obtain ⟨s', hs, rfl⟩ := h
        exact ⟨s', ih (off + 1) s' hs fun i h1 h2 => hm i (by omega) (by simp; omega), rfl⟩

theorem copy_same (bs : List Byte) (t p : Nat) (h : bs.length < 128) :
    (Endpoint.mk (blank.put 0 bs) bs.length t p).copyOther
      = some ⟨blank.put 0 bs, bs.length, t, p⟩ := by
  simp only [Endpoint.copyOther, capacity, if_pos h, Option.some.injEq, Endpoint.mk.injEq, and_true]
  funext i
  by_cases hi : i < bs.length
  · simp [hi]
  · simp [hi, Mem.put]

theorem copy_in4 (big : Bool) (port a t p : Nat) :
    (Endpoint.mk (blank.put 0 (sockaddrIn big port a)) 16 t p).copyOther
      = some ⟨blank.put 0 (sockaddrIn big port a), 16, t, p⟩ := by
  have h : (sockaddrIn big port a).length = 16 := by simp [sockaddrIn]
  have := copy_same (sockaddrIn big port a) t p (by omega)
  rwa [h] at this

theorem copy_in6 (big : Bool) (port : Nat) (a : List Byte) (ha : a.length = 16) (t p : Nat) :
    (Endpoint.mk (blank.put 0 (sockaddrIn6 big port a)) 28 t p).copyOther
      = some ⟨blank.put 0 (sockaddrIn6 big port a), 28, t, p⟩ := by
  have h : (sockaddrIn6 big port a).length = 28 := by simp [sockaddrIn6, ha]
  have := copy_same (sockaddrIn6 big port a) t p (by omega)
  rwa [h] at this

/-- The first two bytes are copied. -/
theorem copy_family (big : Bool) (ep ep' : Endpoint) (hs : 2 ≤ ep.size)
    (h : ep.copyOther = some ep') : ep'.family big = ep.family big := by
  unfold Endpoint.copyOther at h
  split at h
  · cases h
    simp only [Endpoint.family]
    congr 1
    refine get_congr _ _ _ _ fun i _ hi => ?_
    rw [if_pos (by omega)]
  · cases h

theorem copy_getIf (big : Bool) (ep ep' : Endpoint) (hs : 2 ≤ ep.size)
    (h : ep.copyOther = some ep') (p : Proto) : ep'.getIf big p = ep.getIf big p := by
  have hf := copy_family big ep ep' hs h
  have hk : ep'.type = ep.type ∧ ep'.protocol = ep.protocol := by
    unfold Endpoint.copyOther at h
    split at h
    · cases h; exact ⟨rfl, rfl⟩
    · cases h
  simp only [Endpoint.getIf, hf, hk.1, hk.2]

theorem un_at (big : Bool) (path : List Byte) (h : path.length < 108) (i : Nat) (hi : i < 110) :
    blank.put 0 (sockaddrUn big path) i = (sockaddrUn big path)[i]? :=
  put_at _ _ _ (by simp [sockaddrUn]; omega)

/-- Copies keep six characters of a path. -/
theorem copy_path (big : Bool) (path : List Byte) (h : path.length < 108) (h0 : 0 ∉ path)
    (t p : Nat) (ep' : Endpoint)
    (hc : (Endpoint.mk (blank.put 0 (sockaddrUn big path)) 8 t p).copyOther = some ep') :
    ep'.path = some (path.take 6) := by
  have hlt : (path.take 6).length ≤ 6 := by simp; omega
  have hshort : (path.take 6).length < 108 := by omega
  have h0' : 0 ∉ path.take 6 := fun hm => h0 (List.mem_of_mem_take hm)
  have := un_path big (path.take 6) hshort h0' 8 t p
  cases hc
  refine cstr_congr _ _ _ _ _ this fun i h1 h2 => ?_
  simp only
  rw [un_at big _ hshort i (by omega)]
  obtain ⟨x, y, hxy⟩ := store16_cases big afUnix
  obtain ⟨j, rfl⟩ : ∃ j, i = j + 2 := ⟨i - 2, by omega⟩
  by_cases hi : j + 2 < 8
  · rw [if_pos hi, un_at big path h _ (by omega)]
    simp only [sockaddrUn, hxy, List.cons_append, List.nil_append, List.getElem?_cons_succ]
    by_cases hj : j < path.length
    · rw [List.getElem?_append_left (by simp; omega), List.getElem?_append_left hj,
        List.getElem?_take_of_lt (by omega)]
    · have : path.take 6 = path := List.take_of_length_le (by omega)
      rw [this]
  · have hj : j + 2 = 8 := by omega
    have hj6 : j = 6 := by omega
    have hl : (path.take 6).length = 6 := by omega
    rw [if_neg hi]
    subst hj6
    simp only [sockaddrUn, hxy, List.cons_append, List.nil_append, List.getElem?_cons_succ]
    rw [List.getElem?_append_right (by omega), hl]
    rfl

/-- Bytes from 16 on of a copy of an IPv6 address given as text to `ip` are indeterminate. -/
theorem copy_ipv6 (big : Bool) (port : Nat) (a : List Byte)
    (t p : Nat) (ep' : Endpoint)
    (hc : (Endpoint.mk (blank.put 0 (sockaddrIn6 big port a)) 16 t p).copyOther = some ep') :
    ep'.addr6 = none := by
  cases hc
  have hb : blank 16 = none := rfl
  have key : ∀ (m : Mem) (off n k : Nat), off ≤ k → k < off + n → m k = none → m.get off n = none := by
    intro m off n
    induction n generalizing off with
    | zero => intro k h1 h2; omega
    | succ n ih =>
      intro k h1 h2 hk
      rw [Mem.get]
      by_cases hko : k = off
      · subst hko; rw [hk]
      · rw [ih (off + 1) k (by omega) (by omega) hk]
        cases m off <;> rfl
  exact key _ 8 16 16 (by omega) (by omega) (by simp [hb])

end Cobalt.Endp
