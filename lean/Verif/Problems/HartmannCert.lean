import Verif.Problems.Hartmann

/-! # Certificates for the Hartmann functions (generated by tools/hartmann_cert.py, checked by the kernel) -/

namespace Verif.Problems

open Tree

/-- Splits of the exponents (untrusted). -/
def hartmann3Tree : Tree :=
  (n 3 16384 (n 2 16384 (n 1 16384 (n 0 16384 l (n 3 8192 l l)) (n 0 16384 l l)) (n 1 16384 (n 0 16384 l (n 3
  8192 (n 2 32768 (n 3 4096 (n 1 8192 (n 0 32768 l (n 1 4096 (n 2 24576 (n 3 2048 l l) (n 3 2048 (n 1 2048 l (n
  3 1024 (n 0 49152 l (n 2 28672 (n 1 3072 l (n 3 512 l l)) (n 1 3072 l (n 3 512 (n 0 65536 l (n 2 30720 (n 3
  256 l l) l)) (n 0 65536 l l))))) (n 0 49152 l l))) l)) (n 2 24576 l (n 3 2048 (n 3 1024 (n 0 49152 l (n 1
  6144 (n 2 28672 (n 3 512 (n 1 5120 (n 2 26624 l (n 0 65536 l (n 3 256 l l))) l) l) (n 3 512 (n 1 5120 (n 0
  65536 (n 2 30720 l l) (n 2 30720 (n 3 256 (n 1 4608 (n 2 29696 (n 3 128 l (n 1 4352 l l)) (n 3 128 l (n 1
  4352 (n 0 81920 l l) (n 0 81920 l (n 2 30208 (n 3 192 l (n 1 4480 (n 0 98304 l l) l)) l))))) (n 2 29696 l l))
  (n 1 4608 (n 2 29696 (n 3 384 (n 1 4352 (n 0 81920 l l) (n 0 81920 l l)) (n 1 4352 l l)) (n 3 384 (n 1 4352
  (n 0 81920 l (n 2 30208 (n 3 320 (n 1 4224 l (n 0 98304 l (n 2 29952 l l))) l) l)) (n 0 81920 l (n 2 30208 (n
  3 320 (n 1 4480 (n 0 98304 (n 2 29952 (n 3 288 l (n 1 4416 l l)) (n 3 288 (n 1 4416 l (n 0 90112 l (n 2 30080
  l l))) (n 1 4416 (n 0 90112 l (n 2 30080 (n 3 304 (n 1 4384 l (n 2 30016 l l)) l) (n 3 304 l l))) (n 0 90112
  l (n 2 30080 (n 3 304 (n 1 4448 (n 2 30016 l (n 3 296 l l)) l) l) (n 3 304 (n 1 4448 l l) l)))))) (n 2 29952
  (n 3 288 l (n 1 4416 l l)) (n 3 288 (n 1 4416 (n 2 30080 l l) (n 2 30080 l l)) (n 1 4416 (n 2 30080 (n 0
  114688 (n 3 304 (n 1 4384 l (n 2 30016 l (n 3 296 (n 1 4400 l (n 0 106496 (n 2 30048 l (n 0 102400 l l)) l))
  (n 1 4400 l (n 0 106496 (n 2 30048 (n 0 102400 l l) (n 0 102400 (n 3 300 l l) l)) l))))) (n 1 4384 l l)) (n 3
  304 (n 1 4384 l l) l)) (n 0 114688 (n 3 304 (n 1 4384 l (n 2 30144 (n 3 296 l l) l)) l) (n 3 304 l l))) (n 2
  30080 (n 0 114688 (n 3 304 (n 1 4448 (n 2 30016 l (n 3 296 (n 1 4432 (n 0 106496 (n 2 30048 (n 0 102400 l l)
  (n 0 102400 (n 3 292 l (n 1 4424 (n 0 100352 l (n 2 30064 l l)) l)) (n 3 292 l (n 1 4424 l l)))) l) l) (n 1
  4432 (n 0 106496 (n 2 30048 (n 0 102400 l l) (n 0 102400 (n 3 300 (n 1 4424 (n 0 100352 l l) l) l) l)) l)
  l))) l) l) (n 3 304 (n 1 4448 l l) l)) (n 0 114688 (n 3 304 (n 1 4448 (n 2 30144 (n 3 296 (n 1 4432 (n 0
  106496 (n 2 30112 (n 0 102400 l l) l) l) l) (n 1 4432 (n 0 106496 l l) l)) l) l) l) (n 3 304 l l))))))) (n 0
  98304 (n 2 29952 l l) (n 2 29952 l l))) (n 1 4480 (n 0 98304 (n 2 29952 l l) (n 2 29952 l l)) l)) (n 3 320 (n
  1 4480 (n 0 98304 l (n 2 30464 (n 3 288 l l) l)) l) (n 1 4480 l l))))) (n 1 4352 (n 0 81920 l l) (n 0 81920 l
  l)))) (n 2 29696 l (n 3 384 (n 0 81920 l l) l)))) (n 3 256 (n 1 4608 l l) (n 1 4608 (n 2 31744 (n 3 384 (n 1
  4352 l l) l) l) l)))) (n 0 65536 l l)) (n 1 5120 (n 0 65536 l (n 2 30720 l l)) l))) l)) (n 0 49152 l l))
  l)))) (n 0 32768 l l)) (n 1 8192 l l)) (n 3 4096 (n 1 8192 (n 0 32768 l (n 1 4096 (n 3 2048 (n 2 49152 (n 1
  2048 l (n 3 1024 (n 0 49152 l l) l)) l) l) (n 3 2048 (n 2 49152 (n 3 1024 (n 0 49152 l (n 1 6144 l l)) l) l)
  l))) (n 0 32768 l l)) l)) l)) (n 0 16384 l (n 3 8192 (n 2 32768 l l) l)))) (n 2 16384 (n 1 16384 (n 0 16384 l
  l) (n 0 16384 l l)) l))

/-- Splits of the exponents (untrusted). -/
def hartmann6Tree : Tree :=
  (n 3 16384 (n 2 16384 (n 1 16384 l l) (n 1 16384 l (n 0 16384 l (n 3 8192 (n 2 32768 l (n 3 4096 (n 1 32768 l
  (n 0 32768 l l)) l)) l)))) (n 2 16384 (n 1 16384 (n 0 16384 (n 2 8192 (n 3 32768 l l) l) (n 2 8192 l l)) (n 0
  16384 (n 2 8192 (n 3 32768 l (n 2 4096 (n 0 8192 (n 1 32768 (n 0 4096 l (n 2 2048 (n 3 49152 l (n 1 24576 l
  (n 2 1024 (n 0 6144 l (n 3 65536 l l)) l))) l)) (n 0 4096 (n 2 2048 l l) (n 2 2048 (n 3 49152 l (n 1 49152 (n
  2 1024 (n 0 6144 (n 3 65536 l (n 2 512 l l)) (n 3 65536 (n 2 512 l l) (n 2 512 (n 1 40960 (n 0 7168 (n 1
  36864 (n 2 256 l l) (n 2 256 (n 3 81920 l l) (n 3 81920 l (n 0 6656 l (n 2 384 (n 1 38912 l (n 0 6912 l (n 3
  98304 l l))) l))))) (n 1 36864 (n 2 256 l l) (n 2 256 (n 3 81920 (n 0 7680 l l) (n 0 7680 (n 2 128 l (n 1
  38912 (n 0 7424 (n 3 98304 l l) l) (n 0 7424 (n 3 98304 (n 2 192 l (n 1 39936 (n 0 7296 (n 3 90112 l l) (n 3
  90112 l (n 2 224 l (n 1 39424 l (n 0 7360 l l))))) (n 0 7296 l l))) (n 2 192 l (n 1 39936 (n 0 7296 l l) l)))
  (n 3 98304 l l)))) l)) (n 3 81920 (n 0 7680 (n 2 384 (n 1 38912 l l) l) l) (n 0 7680 (n 2 384 (n 1 38912 (n 0
  7424 (n 3 98304 (n 1 37888 l (n 2 320 (n 0 7296 l l) l)) l) l) (n 0 7424 (n 3 98304 (n 2 320 (n 1 39936 (n 0
  7296 (n 3 90112 (n 2 288 (n 1 39424 l l) l) (n 2 288 (n 1 39424 (n 0 7232 l (n 2 272 l l)) (n 0 7232 l (n 2
  272 l l))) l)) (n 3 90112 (n 2 288 (n 1 39424 l (n 0 7360 l l)) l) (n 2 288 (n 1 39424 (n 0 7360 (n 2 272 (n
  1 39168 l (n 3 94208 (n 0 7328 (n 2 264 l l) l) l)) (n 1 39168 l (n 3 94208 (n 0 7328 l l) l))) l) (n 0 7360
  (n 2 272 (n 1 39680 (n 3 94208 (n 0 7328 (n 2 264 l (n 3 92160 l l)) (n 2 264 l l)) (n 0 7328 l l)) l) (n 1
  39680 (n 3 94208 (n 0 7328 l l) l) l)) l)) (n 1 39424 l l)))) (n 0 7296 l (n 3 90112 l l))) (n 1 39936 l l))
  (n 2 320 (n 1 39936 (n 0 7296 (n 2 288 l l) (n 2 288 (n 3 114688 (n 1 39424 l l) l) l)) l) l)) (n 3 98304 (n
  2 320 (n 1 39936 l l) l) l))) l) l))))) (n 0 7168 (n 2 256 l (n 3 81920 l l)) (n 2 256 (n 3 81920 l (n 0 7680
  l l)) (n 3 81920 l (n 0 7680 l l))))) (n 1 40960 (n 0 7168 l l) l)))) l) (n 2 1024 (n 0 6144 l (n 3 65536 l
  (n 2 512 l l))) l))) l))) (n 1 32768 (n 2 2048 (n 3 49152 l l) l) (n 2 2048 (n 3 49152 l (n 0 12288 (n 1
  49152 (n 2 1024 (n 0 10240 (n 3 65536 l (n 2 512 (n 1 40960 l l) l)) l) l) (n 2 1024 (n 0 10240 (n 3 65536 l
  l) l) l)) l)) l))) (n 0 8192 l l))) l) (n 2 8192 (n 3 32768 l (n 2 4096 (n 1 32768 l l) l)) l))) l))

end Verif.Problems
