import Verif.Props.Programs
/-
The benchmarks of bitlib (/repo/benchmark/src/*_bench.hpp) and the profiling program (/repo/profile/src/main.cpp), as programs of calls.

Every benchmark makes one or two `std::vector<uint64_t>`s, sets a few things up, and repeats one call for as long as the benchmark library
wants. Benchmarks are registered for `std::vector<uint64_t>` only (benchmark_main.cc:79-83), so the words have 64 bits. A
`std::vector<uint64_t>` of `s` words with iterators `bit_iterator(begin)`, `bit_iterator(end)` is represented by a bit vector of `64 * s`
elements, which has the same iterators: 0 and `64 * s` below.

Not modelled: the benchmarks of other libraries in the same files (`BM_BitArray*`, `BM_DynamicBitset*`, `BM_Bool*`), the benchmark library
and the measured times.
-/
namespace BitLib.Bench
open Op (at')

/-- The benchmarks that call bitlib. -/
inductive B where
  /-- shift_bench.hpp:10-24, 27-42, 85-99, 101-115 -/
  | shiftLeft | shiftLeftUU | shiftRight | shiftRightUU
  /-- reverse_bench.hpp:5-18, 20-33 -/
  | reverse | reverseUU
  /-- rotate_bench.hpp:6-25, `draw` is the number drawn before the loop -/
  | rotate (draw : Nat)
  /-- fill_bench.hpp:7-20, count_bench.hpp:8-21, find_bench.hpp:7-21 -/
  | fill | count | find
  /-- copy_bench.hpp:5-26, move_bench.hpp:5-25, copy_backward_bench.hpp:5-26, equal_bench.hpp:5-28 -/
  | copy | move | copyBackward | equal
  /-- swap_ranges-bench.hpp:5-25, 27-47 -/
  | swapAA | swapUU
  /-- transform_bench.hpp:9-30, 32-52, 107-130, 132-155 -/
  | notAA | notUU | andAA | andUU
  /-- rw_bench.hpp:6-19, 66-79 -/
  | set | get
  /-- profile/src/main.cpp:32-47; the parameter is not used -/
  | profile

/-- `ceil(float(total_bits) / digits)` (shift_bench.hpp:15 and others): the division by 64 is exact. -/
def ceilWords (N : Nat) : Nat := (f32 N + 63) / 64

/-- Words of the containers of a benchmark with `total_bits = N`. `total_bits` is an `unsigned int`: `N < 2 ^ 32`. -/
def words (N : Nat) : B → List Nat
  | .shiftLeft | .shiftLeftUU | .shiftRight | .shiftRightUU | .reverse | .reverseUU | .rotate _ | .fill | .count | .find => [ceilWords N]
  | .copy | .move | .copyBackward | .equal | .swapAA | .swapUU | .andAA | .andUU => [N / 64 + 1, N / 64 + 1]
  | .notUU | .set | .get => [N / 64 + 1]
  | .notAA => [N / 64]
  | .profile => [2 ^ 24]

/-- The iterator `last` of the benchmarks whose container has `ceilWords` words. -/
def last (N : Nat) : Nat := 64 * ceilWords N

/-- Statements before the loop; `ls` are the random contents of the containers. In equal_bench.hpp:17-21 `std::copy` assigns element by
element: `*d = *s` reads an element of the first container and writes it to the second. -/
def setup (N : Nat) (ls : List (List Bool)) : B → List (Call 64)
  | .find => [.vec (.set 0 (N / 2 + 4) true)]
  | .equal => (List.range (N - 4 - 1)).flatMap fun t => [.get 0 (1 + t), .vec (.set 1 (2 + t) (((at' ls 0)[1 + t]?).getD false))]
  | _ => []

/-- The statement in the loop. Unsigned 32-bit arithmetic for the shift amounts (`total_bits / 2 - 1` wraps for `total_bits < 2`); the
subtractions from iterators are for `N` at least 4 to 7, otherwise the iterators are before the first element. -/
def body (N : Nat) : B → Call 64
  | .shiftLeft => .shiftLeft 0 0 (last N) ((N / 2 + (2 ^ 32 - 1)) % 2 ^ 32)
  | .shiftLeftUU => .shiftLeft 0 1 (last N - 1) (N / 2 + 3)
  | .shiftRight => .shiftRight 0 0 (last N) ((N / 2 + (2 ^ 32 - 1)) % 2 ^ 32)
  | .shiftRightUU => .shiftRight 0 1 (last N - 1) (N / 2 + 3)
  | .reverse => .reverse 0 0 (last N)
  | .reverseUU => .reverse 0 2 (last N - 3)
  | .rotate draw => .rotate 0 0 draw (last N)
  | .fill => .fill 0 2 (last N - 3) true
  | .count => .count 0 0 (last N) true
  | .find => .find 0 2 (last N - 3) true
  | .copy => .copy 0 3 (N - 4) 1 1
  | .move => .move 0 3 (N - 4) 1 1
  | .copyBackward => .copyBackward 0 3 (N - 4) 1 1
  | .equal => .equal 0 1 (N - 4) 1 2
  | .swapAA => .swapRanges 0 0 N 1 0
  | .swapUU => .swapRanges 0 3 (N - 4) 1 1
  | .notAA => .transform (~~~ ·) not 0 0 (64 * (N / 64)) 0 0
  | .notUU => .transform (~~~ ·) not 0 2 (N - 4) 0 1
  | .andAA => .transform2 (· &&& ·) and 0 0 N 1 0 1 0
  | .andUU => .transform2 (· &&& ·) and 0 2 (N - 4) 1 3 1 1
  | .set => .vec (.set 0 (N / 2) true)
  | .get => .get 0 (N / 2)
  | .profile => .shiftLeft 0 2 (64 * 2 ^ 24) (2 ^ 10 + 4)

/-- A run of the benchmark with `k` iterations. -/
def prog (N k : Nat) (ls : List (List Bool)) (b : B) : List (Call 64) := setup N ls b ++ List.replicate k (body N b)

/-- `bit::` benchmarks registered in benchmark_main.cc:104-536, for `size_small` and `size_large` (lines 99-101). -/
def registered : List Nat := [2 ^ 8, 2 ^ 26]

end BitLib.Bench
