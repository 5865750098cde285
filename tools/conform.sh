#!/bin/sh
# Compares the output of the modelled compiler with the output files the project keeps for its tests
# and counts the functions of library and compiler sources that meet the conditions of C67.
# usage: tools/conform.sh /repo    (after `lake build` in lean/)
R=$1
W=`mktemp -d`
cd `dirname $0`/../lean
CPP="cpp -Wno-comment -nostdinc -I$R/include -I$R/lib/SrcTac -I$R/src--"
run() { lake env lean --run Verif/Conf/Run.lean "$@"; }
for f in $R/Test/c--/t[0-9][0-9][0-9].cmm; do
  n=`basename $f .cmm`
  $CPP $f > $W/i
  run $W/i > $W/tac
  run $W/i vm > $W/vm
  run $W/i ic > $W/ic
  sed 's/#0x00ff/#255/' $R/Test/c--/TaC.Opt/$n.s > $W/s
  if cmp -s $W/tac $W/s; then a=same; else a=different; fi
  if cmp -s $W/vm $R/Test/c--/VM.Opt/$n.s; then b=same; else b=different; fi
  if cmp -s $W/ic $R/Test/c--/IM.Opt/$n.i; then c=same; else c=different; fi
  echo "$n tac $a vm $b ic $c"
done
for f in $R/lib/SrcTac/*.cmm $R/lib/SrcCmm/*.cmm $R/src--/*.cmm; do
  D=
  test `basename $f` = cCode.cmm && D=-D_C
  $CPP $D -DARC='"TaC"' -DVER='"0"' -DDATE='"0"' -DNWORD=16 -DNBYTE=8 $f > $W/i
  run $W/i O0 cov > $W/c
  echo "`basename $f` functions `wc -l < $W/c` conditions met by `grep -c true $W/c`"
done
rm -r $W
